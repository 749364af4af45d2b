import Verif.Props.Calm
import Verif.Props.Total
/-
C13: the data file is append-only.
-/
namespace NuDB

open Spec

section
variable {c : Cfg} {cf : Conf}

/-- Truncation during recovery. -/
private theorem trunc_dat {σ : Schedule} {w : World} {df : FileSt} {lh : LogHeader} (hd : w.fs .dat = some df)
    {Post : Fs → Prop} (h0 : ∀ fs, fs .dat = some df → Post fs)
    (h1 : ∀ fs f, fs .dat = some f → f.cur = truncAt df.cur lh.datFileSize → Post fs) :
    wp σ (truncFiles lh) (fun _ w' => Post w'.fs) (fun _ w' => Post w'.fs) w := by
  unfold truncFiles
  apply wp_bind
  apply wp_fTrunc hd
  · apply wp_bind
    have e : (df.push (.trunc lh.datFileSize)).cur = truncAt df.cur lh.datFileSize := by rw [cur_push]; rfl
    apply wp_fSync (f := df.push (.trunc lh.datFileSize)) (by simp)
    · generalize hfs : Fs.set _ .dat (some (FileSt.synced _)) = fs2
      have d2 : fs2 .dat = some (df.push (.trunc lh.datFileSize)).synced := by rw [← hfs]; simp
      have fin : ∀ w' : World, w'.fs .dat = fs2 .dat → Post w'.fs := fun w' h =>
        h1 _ _ (h.trans d2) (by rw [synced_eq]; exact e)
      apply wp_spares (p := .dat) (m := _)
      · repeat' first
          | exact Spares.clearLog (by decide)
          | exact Spares.fErase (by decide) | exact Spares.fTrunc (by decide) | exact Spares.fSync (by decide)
          | apply Spares.bind | intro _ | split
      · exact fun _ w' h => fin w' h
      · exact fun _ w' h => fin w' h
    · intro x _ _; exact h1 _ (df.push (.trunc lh.datFileSize)) (by simp) e
  · intro x _ _; exact h0 _ hd

/-- What `recover` does to the data file, on arbitrary files. -/
private theorem recover_dat {σ : Schedule} {w : World} {df : FileSt} (hd : w.fs .dat = some df)
    {Post : Fs → Prop} (h0 : ∀ fs, fs .dat = some df → Post fs)
    (h1 : ∀ fs f lf, w.fs .log = some lf → 62 ≤ lf.cur.length → fs .dat = some f →
      f.cur = truncAt df.cur (getLogHeader (lf.cur.take 62)).datFileSize → Post fs) :
    wp σ (recover c) (fun _ w' => Post w'.fs) (fun _ w' => Post w'.fs) w := by
  have hro : ∀ {α : Type} {m : M α} {k : α → M Unit} {w1 : World}, ReadOnly m → w1.fs = w.fs →
      (∀ a w2, w2.fs = w.fs → wp σ (k a) (fun _ w' => Post w'.fs) (fun _ w' => Post w'.fs) w2) →
      wp σ (m >>= k) (fun _ w' => Post w'.fs) (fun _ w' => Post w'.fs) w1 := by
    intro α m k w1 hm hw hk
    apply wp_bind
    apply wp_readonly hm
    · intro a w2 h2; exact hk a w2 (h2.trans hw)
    · intro x w2 h2; exact h0 _ (by rw [h2, hw]; exact hd)
  have hsp : ∀ {m : M Unit} {w1 : World}, Spares .dat m → w1.fs = w.fs →
      wp σ m (fun _ w' => Post w'.fs) (fun _ w' => Post w'.fs) w1 := by
    intro m w1 hm hw
    apply wp_spares hm
    · intro a w2 h2; exact h0 _ (by rw [h2, hw]; exact hd)
    · intro a w2 h2; exact h0 _ (by rw [h2, hw]; exact hd)
  unfold recover
  refine hro (fun _ => Spares.fOpen) rfl ?_; intro _ w1 e1
  refine hro (fun _ => Spares.fSize) e1 ?_; intro size w2 e2
  refine hro (fun _ => Spares.readDatHeader) e2 ?_; intro dh w3 e3
  refine hro (fun _ => Spares.check _) e3 ?_; intro _ w4 e4
  refine hro (fun _ => Spares.fOpen) e4 ?_; intro _ w5 e5
  refine hro (fun _ => Spares.fSize) e5 ?_; intro ks w6 e6
  split
  · refine hsp ?_ e6
    repeat' first
      | exact Spares.eraseFile (by decide) | exact Spares.fErase (by decide) | exact Spares.fail _
      | apply Spares.bind | intro _
  · refine hro (fun _ => Spares.attempt Spares.fOpen) e6 ?_; intro o w7 e7
    split
    · exact h0 _ (by rw [e7]; exact hd)
    · exact h0 _ (by rw [e7]; exact hd)
    · refine hro (fun _ => Spares.fSize) e7 ?_; intro ls w8 e8
      apply wp_bind
      apply wp_attempt
      have hh : wp σ readLogHeader (fun lh w' => w'.fs = w.fs ∧ ∃ lf, w.fs .log = some lf ∧ 62 ≤ lf.cur.length ∧
          lh = getLogHeader (lf.cur.take 62)) (fun _ w' => w'.fs = w.fs) w8 := by
        unfold readLogHeader
        apply wp_bind
        cases hl : w.fs .log with
        | none =>
          apply wp_fileOp
          · simp only [e8, hl]
          · intro k _; exact e8
          · intro k _; exact e8
        | some lf =>
          by_cases h62 : 62 ≤ lf.cur.length
          · apply wp_fRead (f := lf) (by rw [e8]; exact hl) (by simpa [logHeaderSize] using h62)
            · apply wp_ret
              exact ⟨e8, lf, rfl, h62, by rw [take_eq_slice']; rfl⟩
            · intro x _ _; exact e8
          · apply wp_fRead_short (f := lf) (by rw [e8]; exact hl) (by decide)
              (by simp only [logHeaderSize]; omega)
            · exact e8
            · intro x _ _; exact e8
      apply wp_conseq hh
      · rintro lh w9 ⟨e9, lf, hl, h62, rfl⟩
        simp only
        refine hro (fun _ => Spares.check _) e9 ?_; intro _ w10 e10
        split
        · apply trunc_dat (by rw [e10]; exact hd) h0
          intro fs f hf hc
          exact h1 fs f lf hl h62 hf hc
        · apply wp_bind
          apply wp_spares (p := .dat) (Spares.replayLog (by decide))
          · intro _ w11 e11
            apply trunc_dat (by rw [e11, e10]; exact hd) h0
            intro fs f hf hc
            exact h1 fs f lf hl h62 hf hc
          · intro x w11 e11; exact h0 _ (by rw [e11, e10]; exact hd)
      · intro x w9 e9
        cases x with
        | err e =>
          simp only
          split
          · exact hsp (Spares.clearLog (by decide)) e9
          · exact h0 _ (by rw [e9]; exact hd)
          · rename_i h; cases h
        | _ => exact h0 _ (by rw [e9]; exact hd)

end

section
variable {c : Cfg} {a : CreateArgs} {lf : Nat} {short : Prop}

/-- Everything in a `Safe` state starts with `V`, if all acceptable databases do. -/
private theorem Safe.dat {cf : Conf} {L : Nat} {V : Bytes} {G : Bytes → Bytes → Prop} {fs : Fs} (h : Safe c cf L G fs)
    (hG : ∀ D K, G D K → V <+: D) : ∃ D, bytesOf fs .dat = some D ∧ V <+: D := by
  cases h with
  | clear df kf D K hd hk hl hg sd sk => exact ⟨D, by simp [bytesOf, hd, sd.cur], hG _ _ hg⟩
  | short df kf lf D K hd hk hl hlen hg sd sk img => exact ⟨D, by simp [bytesOf, hd, sd.cur], hG _ _ hg⟩
  | long df kf lf D K hd hk hl hlen hg img none =>
    obtain ⟨_, _, _, _, _, _, _, _, _, _, h, _⟩ := img _ (ordered_cur lf) hlen
    exact ⟨_, by simp [bytesOf, hd], (hG _ _ hg).trans (h _ (version_cur df))⟩

/-- Calls on an open store. -/
private theorem perform_dat {cf : Conf} {s : Store} {w : World} {D K : Bytes} {recs : List Rec} {B : Nat} {view : View}
    {op : Op} {σ : Schedule} (hS : Sess c cf s w.fs D K recs B view) (ha : Allowed cf.keySize op (some s)) :
    wp σ (perform c op (some s)) (fun _ w' => ∃ L, Safe c cf L (fun D' _ => D <+: D') w'.fs)
      (fun _ w' => ∃ L, Safe c cf L (fun D' _ => D <+: D') w'.fs) w := by
  have hq : ∀ {w' : World}, Quiet w w' → ∃ L, Safe c cf L (fun D' _ => D <+: D') w'.fs := fun h =>
    ⟨0, Idle.safe (G := fun D' _ => D <+: D') (List.prefix_refl D) (hS.quiet h).idle⟩
  cases op with
  | insert k v =>
    unfold perform
    apply wp_bind
    apply wp_attempt
    apply wp_insert hS ha.1 ha.2.1 ha.2.2
    · intro s' w' h _ _ _; exact wp_ret (hq h)
    · intro w' h _; exact wp_ret (hq h)
    · intro x w' hx _ h
      rcases hx with rfl | rfl
      · exact hq h
      · exact wp_ret (hq h)
  | fetch k =>
    unfold perform
    apply wp_bind
    apply wp_attempt
    apply wp_fetch hS.ready hS.ec ha
    · intro v w' h _; exact wp_ret (hq h)
    · intro w' h _; exact wp_ret (hq h)
    · intro x w' hx _ h
      rcases hx with rfl | rfl
      · exact hq h
      · exact wp_ret (hq h)
  | flush =>
    unfold perform
    apply wp_bind
    refine wp_conseq (wp_flush hS (G := fun D' _ => D <+: D') (fun _ => Nat.le_refl _) (List.prefix_refl _)
      (fun _ _ _ _ _ h _ _ _ _ => h)
      (Q := fun _ w' => ∃ L, Safe c cf L (fun D' _ => D <+: D') w'.fs) ?_ ?_) ?_ ?_
    · intro s' w' D1 K1 rs B1 view1 b1 b2 b3 b4 b5 b6 b7 b8
      exact ⟨0, Idle.safe (G := fun D' _ => D <+: D') b3 b1.idle⟩
    · intro s' w' _ _ _ h; exact ⟨_, h⟩
    · intro s' w' h
      split
      · exact wp_ret h
      · exact wp_ret h
    · intro x w' h; exact ⟨_, h.1⟩
  | close =>
    unfold perform
    apply wp_bind
    refine wp_conseq (wp_close hS (G := fun D' _ => D <+: D') (fun _ => Nat.le_refl _) (List.prefix_refl _)
      (fun _ _ _ _ _ h _ _ _ _ => h)
      (Q := fun _ w' => ∃ L, Safe c cf L (fun D' _ => D <+: D') w'.fs) ?_ ?_) ?_ ?_
    · intro w' D1 K1 rs B1 view1 b1 b2 b3 b4 b5 b6 b7
      exact ⟨0, Closed.safe (G := fun D' _ => D <+: D') b4 b1⟩
    · intro w' _ h; exact ⟨_, h⟩
    · intro s' w' h
      split
      · exact wp_ret h
      · exact wp_ret h
    · intro x w' h; exact ⟨_, h.1⟩
  | «open» => exact ha.elim

/-- C13: no call on an open store changes a byte of the data file that was there before,
whatever the outcome, even if the machine fails during or after the call. (After a failed
flush no file is changed at all, see C11.) -/
theorem C13_append_only {t : List Label} {s : Store} {fs fs' : Fs} {op : Op} {σ : Schedule} {w w' : World}
    {r : Except Exc (Option Store × Ret)} (hc : Creatable a lf)
    (hr : Reachable c a short t (some s, fs)) (he : s.ec = none) (ha : Allowed a.keySize op (some s))
    (hw : w.fs = fs) (h : perform c op (some s) σ w = (r, w')) (hs : Restart w'.fs fs') :
    ∃ D D', bytesOf fs .dat = some D ∧ bytesOf fs' .dat = some D' ∧ D <+: D' := by
  obtain ⟨st, _, hR⟩ := simulation hc hr
  cases hR with
  | @opened _ _ D K recs B view hS base hz hf =>
    subst hw
    have h1 := perform_dat (σ := σ) hS ha
    unfold wp at h1
    rw [h] at h1
    have h2 : ∃ L, Safe c (a.conf lf) L (fun D' _ => D <+: D') w'.fs := by
      cases r with
      | ok _ => exact h1
      | error _ => exact h1
    obtain ⟨L, h2⟩ := h2
    obtain ⟨df, hd, sd⟩ := hS.idle.dat
    obtain ⟨D', h3, h4⟩ := (h2.restart hs).dat (fun _ _ h => h)
    exact ⟨D, D', by simp [bytesOf, hd, sd.cur], h3, h4⟩
  | failed h => rw [he] at h; cases h

/-- C13: `recover` (and thus `open`) on the files of a closed database leaves the data file
as it is or cuts it back to the size recorded in the log, whatever the outcome and
whichever file operations fail. -/
theorem C13_recover {t : List Label} {fs : Fs} {σ : Schedule} {w w' : World}
    (hc : Creatable a lf) (hr : Reachable c a short t (none, fs)) (hw : w.fs = fs)
    (h : (∃ r, recover c σ w = (r, w')) ∨ ∃ r, openStore c σ w = (r, w')) :
    ∃ D D', bytesOf fs .dat = some D ∧ bytesOf w'.fs .dat = some D' ∧
      (D' = D ∨ ∃ l n, bytesOf fs .log = some l ∧ 62 ≤ l.length ∧
        n = (getLogHeader (l.take 62)).datFileSize ∧ n ≤ D.length ∧ D' = D.take n) := by
  obtain ⟨st, _, hR⟩ := simulation hc hr
  cases hR with
  | @closed _ L m₀ m₁ hL h1 =>
    subst hw
    obtain ⟨df, hd, hlog⟩ : ∃ df, w.fs .dat = some df ∧ ∀ l, w.fs .log = some l → 62 ≤ l.cur.length →
        (getLogHeader (l.cur.take 62)).datFileSize ≤ df.cur.length := by
      cases h1 with
      | clear df kf D K hd hk hl hg sd sk => exact ⟨df, hd, fun l h => by rw [hl] at h; cases h⟩
      | short df kf lf D K hd hk hl hlen hg sd sk img =>
        exact ⟨df, hd, fun l h h' => by rw [hl] at h; cases h; omega⟩
      | long df kf lf' D K hd hk hl hlen hg img none =>
        refine ⟨df, hd, fun l h h' => ?_⟩
        rw [hl] at h; cases h
        obtain ⟨recs, B, view, ns, rest, hdb, _, e, _, _, h, _⟩ := img _ (ordered_cur lf') hlen
        have e2 : getLogHeader (lf'.cur.take 62) = (a.conf lf).lh c.H K.length D.length := by
          rw [← take_eq_slice']
          refine get_lh (rest := ns.flatMap (logRec view) ++ rest) hdb.conf ?_ hdb.klen.2.1 (by have := hdb.dlen; omega)
          rw [e, logBytes]; simp
        rw [e2]
        exact (h _ (version_cur df)).length_le
    have h0 : ∀ fs', fs' .dat = some df → ∃ D D', bytesOf w.fs .dat = some D ∧ bytesOf fs' .dat = some D' ∧
        (D' = D ∨ ∃ l n, bytesOf w.fs .log = some l ∧ 62 ≤ l.length ∧
          n = (getLogHeader (l.take 62)).datFileSize ∧ n ≤ D.length ∧ D' = D.take n) :=
      fun fs' h => ⟨df.cur, df.cur, by simp [bytesOf, hd], by simp [bytesOf, h], .inl rfl⟩
    have h3 : ∀ fs' f l, w.fs .log = some l → 62 ≤ l.cur.length → fs' .dat = some f →
        f.cur = truncAt df.cur (getLogHeader (l.cur.take 62)).datFileSize →
        ∃ D D', bytesOf w.fs .dat = some D ∧ bytesOf fs' .dat = some D' ∧
          (D' = D ∨ ∃ l n, bytesOf w.fs .log = some l ∧ 62 ≤ l.length ∧
            n = (getLogHeader (l.take 62)).datFileSize ∧ n ≤ D.length ∧ D' = D.take n) :=
      fun fs' f l hl h62 hf e => ⟨df.cur, f.cur, by simp [bytesOf, hd], by simp [bytesOf, hf], .inr
        ⟨l.cur, _, by simp [bytesOf, hl], h62, rfl, hlog l hl h62, by
          have := hlog l hl h62
          rw [e]; unfold truncAt; rw [Nat.sub_eq_zero_of_le this]; simp⟩⟩
    have hR := recover_dat (c := c) (σ := σ) hd h0 h3
    rcases h with ⟨r, h⟩ | ⟨r, h⟩
    · unfold wp at hR
      rw [h] at hR
      cases r with
      | ok _ => exact hR
      | error _ => exact hR
    · have hO : wp σ (openStore c) (fun _ w' => ∃ D D', bytesOf w.fs .dat = some D ∧ bytesOf w'.fs .dat = some D' ∧
        (D' = D ∨ ∃ l n, bytesOf w.fs .log = some l ∧ 62 ≤ l.length ∧
          n = (getLogHeader (l.take 62)).datFileSize ∧ n ≤ D.length ∧ D' = D.take n)) (fun _ w' => ∃ D D', bytesOf w.fs .dat = some D ∧ bytesOf w'.fs .dat = some D' ∧
        (D' = D ∨ ∃ l n, bytesOf w.fs .log = some l ∧ 62 ≤ l.length ∧
          n = (getLogHeader (l.take 62)).datFileSize ∧ n ≤ D.length ∧ D' = D.take n)) w := by
        unfold openStore
        apply wp_bind
        refine wp_conseq hR ?_ (fun _ _ h => h)
        intro _ w1 hw1
        apply wp_spares (p := .dat)
        · repeat' first
            | exact Spares.fOpen | exact Spares.fCreate (by decide) | exact Spares.readDatHeader
            | exact Spares.readKeyHeader | exact Spares.check _ | exact Spares.fail _ | exact Spares.ret _
            | apply Spares.bind | intro _ | split
        · intro _ w2 h2; simpa only [bytesOf, h2] using hw1
        · intro _ w2 h2; simpa only [bytesOf, h2] using hw1
      unfold wp at hO
      rw [h] at hO
      cases r with
      | ok _ => exact hO
      | error _ => exact hO

/-- The premises of C13 hold for the crashing flush of the example of C06 and the
recovery after it. -/
example : ∃ t s fs σ w w' fs₁ w₁, Creatable demoArgs 32768 ∧ Reachable demoCfg demoArgs False t (some s, fs) ∧
    s.ec = none ∧ Allowed demoArgs.keySize .flush (some s) ∧ w.fs = fs ∧
    perform demoCfg .flush (some s) σ w = (.error .crash, w') ∧ Restart w'.fs fs₁ ∧
    Reachable demoCfg demoArgs False (t ++ [.died .flush]) (none, fs₁) ∧
    recover demoCfg calm ⟨fs₁, 0, []⟩ = (.ok (), w₁) := by
  obtain ⟨t, s, w, w₁, h1, h2, h3, h4, w₂, h5⟩ := demo_crash
  have hr := reachable_died h1 h4
  obtain ⟨st, m, _, ⟨v₁, _, _, e, _⟩, _⟩ := C12_any_history demo_creatable hr (.inl rfl)
  exact ⟨t, s, w.fs, _, w, w₁, w₁.fs, v₁, demo_creatable, h1, h2, trivial, rfl,
    perform_flush_error h4, .inl rfl, hr, e⟩

end

end NuDB
