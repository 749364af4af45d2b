import Verif.Proof.Tool
import Verif.Props.Visit
import Verif.Props.RekeyCount
/-
C85: the command line tool.
-/
namespace NuDB

open Spec Tool

/-- C85: `log2` is the number of the highest bit, and -1 for 0. -/
theorem C85_log2 (n : Nat) (h : n < 2 ^ 64) :
    (n = 0 → Tool.log2 n = -1) ∧ (1 ≤ n → ∃ i : Nat, Tool.log2 n = i ∧ i < 64 ∧ 2 ^ i ≤ n ∧ n < 2 ^ (i + 1)) := by
  refine ⟨fun h0 => by subst h0; decide, fun h1 => ?_⟩
  obtain ⟨i, e, hi, hc⟩ := log2_spec h1 h
  exact ⟨i, e, hi, hc.1, hc.2⟩

/-- C85: `fdec` shows the decimal digits, with a comma before every three digits counted from the end and none at the beginning. -/
theorem C85_fdec (t : Nat) : (fdec t).filter (· ≠ ',') = Nat.toDigits 10 t ∧
    (∀ i, i < (fdec t).length → ((fdec t).reverse.getD i ' ' = ',' ↔ i % 4 = 3)) ∧ (fdec t).head? ≠ some ',' := by
  have hd : ∀ ch ∈ (Nat.toDigits 10 t).reverse, ch ≠ ',' := by
    intro ch hch h
    have := Nat.isDigit_of_mem_toDigits (b := 10) (by omega) (by omega) (List.mem_reverse.mp hch)
    rw [h] at this
    revert this
    decide
  obtain ⟨h1, h2, h3⟩ := fdecLoop_spec (Nat.toDigits 10 t).reverse 0 [] [] hd (by omega) (fun _ => rfl) rfl
    (fun i hi => by simp at hi) rfl
  refine ⟨?_, ?_, ?_⟩
  · unfold fdec; rw [h1, List.reverse_reverse, List.append_nil]
  · intro i hi
    exact h2 i (by rw [List.length_reverse]; exact hi)
  · by_cases hn : (Nat.toDigits 10 t).reverse = []
    · unfold fdec
      rw [hn]
      simp [fdecLoop]
    · obtain ⟨ch, l, e, hne⟩ := h3 (.inl hn)
      unfold fdec
      rw [e]
      simpa using hne

/-- C85: `fhex` shows any number of 64 bits with "0x" and sixteen digits, and stays inside of its string. -/
theorem C85_fhex (v : Nat) (h : v < 2 ^ 64) :
    ∃ ds, fhex v = .ok ('0' :: 'x' :: ds) ∧ ds.length = 16 ∧ hexValue ds = v := by
  obtain ⟨xs, h1, h2, h3⟩ := fhexLoop_spec 16 v [] (by simpa using h)
  rw [List.append_nil] at h1
  refine ⟨xs, ?_, h2, h3⟩
  unfold fhex
  rw [show "0x0000000000000000".toList = '0' :: 'x' :: (List.replicate 16 '0' ++ []) by decide]
  simpa using h1

/-- C85: `fhist` leaves out the zeros at the end, but never the first number. -/
theorem C85_fhist (hist : List Nat) (h : hist ≠ []) : ∃ n, 1 ≤ n ∧ n ≤ hist.length ∧ fhist hist = hist.take n ∧
    (∀ x ∈ hist.drop n, x = 0) ∧ (n = 1 ∨ hist.getD (n - 1) 0 ≠ 0) := by
  have hl : 0 < hist.length := List.length_pos_iff.mpr h
  obtain ⟨h1, h2, h3⟩ := fhistLast_spec hist (hist.length - 1)
  refine ⟨fhistLast hist (hist.length - 1) + 1, by omega, by omega, rfl, ?_, ?_⟩
  · intro x hx
    obtain ⟨i, hi, rfl⟩ := List.mem_iff_getElem.mp hx
    rw [List.length_drop] at hi
    have := h3 (fhistLast hist (hist.length - 1) + 1 + i) (by omega) (by omega)
    rw [List.getElem_drop]
    rw [List.getD_eq_getElem?_getD, List.getElem?_eq_getElem (by omega)] at this
    exact this
  · rcases h2 with h2 | h2
    · exact .inl (by omega)
    · exact .inr h2

theorem itemsOf_visited (out : List Event) : Tool.itemsOf out = (visited out).map Prod.snd := by
  induction out with
  | nil => rfl
  | cons e out ih => cases e <;> simp_all [Tool.itemsOf, visited]

/-- What the tool has to report for these pairs. -/
structure Tool.Counts (l : List (Bytes × Bytes)) (t : Tally) : Prop where
  count : t.count = l.length
  length : t.hist.length = 64
  hist : ∀ i, i < 64 → t.hist.getD i 0 = (l.filter (fun p => InClass i p.2.length)).length

theorem counts_tally {l : List (Bytes × Bytes)} (h : ∀ p ∈ l, 1 ≤ p.2.length ∧ p.2.length < 2 ^ 32) :
    ∃ t, tally (l.map Prod.snd) ⟨0, List.replicate 64 0⟩ = .ok t ∧ Tool.Counts l t := by
  obtain ⟨t, h1, h2, h3, h4⟩ := tally_ok (l.map Prod.snd) ⟨0, List.replicate 64 0⟩ (by simp) (by
    intro v hv
    obtain ⟨p, hp, rfl⟩ := List.mem_map.mp hv
    have := h p hp
    exact ⟨this.1, Nat.lt_trans this.2 (by decide)⟩)
  refine ⟨t, h1, ⟨by simpa using h2, h3, fun i hi => ?_⟩⟩
  have e : (List.replicate 64 0).getD i 0 = 0 := by
    rw [List.getD_eq_getElem?_getD, List.getElem?_replicate, if_pos hi]; rfl
  rw [h4 i hi]
  dsimp only
  rw [e, Nat.zero_add, List.filter_map, List.length_map]
  rfl

/-- C85: on a data file, `nudb visit` reports the number of pairs, and in entry `i` of the histogram the number of those with a value of at
least 2^i and less than 2^(i+1) bytes; or a file operation was disturbed, and an error is reported. No file is changed. -/
theorem C85_visit {c : Cfg} {ks : Nat} {rs : List Record} {f : FileSt} {w w' : World} {σ : Schedule} {res : Except Exc Tally}
    (hf : w.fs .dat = some f) (hd : DataFile ks f.cur rs) (ho : w.out = []) (h : toolVisit c σ w = (res, w')) :
    w'.fs = w.fs ∧ ((∃ t, res = .ok t ∧ Tool.Counts (values rs) t) ∨ (Disturbed σ ∧ ∃ x, res = .error x)) := by
  have hlen : 92 ≤ f.cur.length := by
    obtain ⟨hh, h1, h2, _⟩ := hd
    rw [h2, List.length_append, h1.length]; omega
  have hval : ∀ p ∈ values rs, 1 ≤ p.2.length ∧ p.2.length < 2 ^ 32 := by
    intro p hp
    obtain ⟨_, _, _, h3⟩ := hd
    obtain ⟨r, hr, e⟩ := List.mem_filterMap.mp hp
    have := h3 r hr
    cases r with
    | value k v => cases e; exact this.2
    | overflow b => cases e
  have hhead : wp σ visitHeader (fun _ w1 => w1.fs = w.fs ∧ w1.out = []) (fun _ w1 => w1.fs = w.fs ∧ Disturbed σ) w := by
    unfold visitHeader
    apply wp_bind
    apply wp_fOpen (by exact hf) _ (fun x hx hfa => ⟨rfl, hfa⟩)
    apply wp_bind
    apply wp_fSize (f := f) (by exact hf) _ (fun x hx hfa => ⟨rfl, hfa⟩)
    apply wp_bind
    unfold readDatHeader
    apply wp_bind
    apply wp_fRead (f := f) (by exact hf) (by simp only [datHeaderSize]; omega) _ (fun x hx hfa => ⟨rfl, hfa⟩)
    apply wp_ret
    apply wp_ret
    exact ⟨rfl, ho⟩
  have key : wp σ (toolVisit c) (fun t w' => w'.fs = w.fs ∧ Tool.Counts (values rs) t) (fun _ w' => w'.fs = w.fs ∧ Disturbed σ) w := by
    unfold toolVisit
    apply wp_bind
    refine wp_conseq hhead ?_ (fun _ _ h => h)
    rintro _ w1 ⟨e1, e2⟩
    apply wp_bind
    apply wp_history
    unfold wp
    dsimp only
    cases hv : visit c (fun _ => none) σ w1 with
    | mk r w2 =>
      obtain ⟨h1, h2⟩ := C27_visit (w := w1) (by rw [e1]; exact hf) hd hv
      dsimp only
      rw [e2, List.length_nil, List.drop_zero, itemsOf_visited]
      rcases h2 with ⟨rfl, h2⟩ | ⟨hds, ⟨x, rfl⟩, l, hl, h2⟩
      · rw [e2] at h2
        rw [h2]
        obtain ⟨t, e, ht⟩ := counts_tally hval
        rw [show visited [] ++ values rs = values rs from rfl, e]
        exact ⟨by rw [h1, e1], ht⟩
      · rw [e2] at h2
        rw [h2]
        obtain ⟨t, e, ht⟩ := counts_tally (l := l) (fun p hp => hval p (hl.subset hp))
        rw [show visited [] ++ l = l from rfl, e]
        exact ⟨by rw [h1, e1], hds⟩
  unfold wp at key
  rw [h] at key
  cases res with
  | ok t => exact ⟨key.1, .inl ⟨t, rfl, key.2⟩⟩
  | error x => exact ⟨key.1, .inr ⟨key.2, x, rfl⟩⟩

section
variable {c : Cfg} {a : CreateArgs} {lf : Nat} {short : Prop}

/-- C85: for a closed database without log file, `nudb visit` reports on the stored pairs: `l` lists them, each once. -/
theorem C85_database {t : List Label} {fs : Fs} {m : Map} (hc : Creatable a lf) (hr : Reachable c a short t (none, fs))
    (hl : fs .log = none) (hm : Answers c a.keySize fs m) :
    ∃ l : List (Bytes × Bytes), (l.map Prod.fst).Nodup ∧ (∀ k v, (k, v) ∈ l ↔ k.length = a.keySize ∧ m k = some v) ∧
      ∃ r w', toolVisit c calm ⟨fs, 0, []⟩ = (.ok r, w') ∧ w'.fs = fs ∧ Tool.Counts l r := by
  obtain ⟨v', hv, _, hn, hmem⟩ := C27_database hc hr hl hm
  refine ⟨visited v'.out, hn, hmem, ?_⟩
  obtain ⟨D, K, recs, B, view, hS, _⟩ := settled hc hr hl
  obtain ⟨df, hd, sd⟩ := hS.closed.dat
  have hdat := dataFile_of hS.db.conf hS.db.dat
  rw [← sd.cur] at hdat
  have hvis : visited v'.out = values (recs.map Rec.toRecord) := by
    rcases (C27_visit (w := ⟨fs, 0, []⟩) hd hdat hv).2 with ⟨_, h2⟩ | ⟨h, _⟩
    · rw [h2]; rfl
    · exact absurd h not_faulty_calm
  cases e : toolVisit c calm ⟨fs, 0, []⟩ with
  | mk res w' =>
    obtain ⟨h1, h2⟩ := C85_visit (w := ⟨fs, 0, []⟩) hd hdat rfl e
    rcases h2 with ⟨r, rfl, h2⟩ | ⟨h, _⟩
    · exact ⟨r, w', rfl, h1, by rw [hvis]; exact h2⟩
    · exact absurd h not_faulty_calm

/-- C85: `nudb rekey`, given the number of pairs reported by `nudb visit` after the key file was lost: if it succeeds the database answers as before. -/
theorem C85_rekey {t : List Label} {fs : Fs} {m : Map} {σ : Schedule} {w v w' : World} {r : Tally} {buffer salt : Nat}
    (hc : Creatable a lf) (hr : Reachable c a short t (none, fs)) (hl : fs .log = none) (hm : Answers c a.keySize fs m)
    (hw : w.fs = fs.set .key none) (hv : toolVisit c calm ⟨w.fs, 0, []⟩ = (.ok r, v)) (h1 : 1 ≤ r.count)
    (h2 : r.count * 2 ≤ 2 ^ 31 * 227) (hsalt : salt < 2 ^ 64) (hrun : toolRekey c r.count buffer salt σ w = (.ok (), w')) :
    Answers c a.keySize w'.fs m ∧ ∃ l : List (Bytes × Bytes), r.count = l.length ∧ (l.map Prod.fst).Nodup ∧
      ∀ k v, (k, v) ∈ l ↔ k.length = a.keySize ∧ m k = some v := by
  have hb : bucketCapacity 4096 = 227 := by decide
  refine ⟨(C81_rekey (rc := ⟨4096, .rat 1 2, r.count, salt, buffer⟩) hc hr hl hm hsalt ⟨by simp, by simp⟩ rfl (by decide) (by decide) (by decide) h1
    (by show r.count < _; omega) (by show r.count * 2 ≤ _; rw [hb]; omega) hw hrun).1, ?_⟩
  obtain ⟨v', hv', _, hn, hmem⟩ := C27_database hc hr hl hm
  refine ⟨visited v'.out, ?_, hn, hmem⟩
  obtain ⟨D, K, recs, B, view, hS, _⟩ := settled hc hr hl
  obtain ⟨df, hd, sd⟩ := hS.closed.dat
  have hdat := dataFile_of hS.db.conf hS.db.dat
  rw [← sd.cur] at hdat
  have hvis : visited v'.out = values (recs.map Rec.toRecord) := by
    rcases (C27_visit (w := ⟨fs, 0, []⟩) hd hdat hv').2 with ⟨_, h2⟩ | ⟨h, _⟩
    · rw [h2]; rfl
    · exact absurd h not_faulty_calm
  have hd' : w.fs .dat = some df := by rw [hw]; simpa [Fs.set] using hd
  rcases (C85_visit (w := ⟨w.fs, 0, []⟩) hd' hdat rfl hv).2 with ⟨r', e, h⟩ | ⟨h, _⟩
  · cases e
    rw [hvis]; exact h.count
  · exact absurd h not_faulty_calm

/-- C85: for a closed database without log file, `nudb info` recognises both files and shows their sizes and what was given to `create`; the number of
buckets shown is the number of blocks after the header. -/
theorem C85_info {t : List Label} {fs : Fs} {D K : Bytes} (hc : Creatable a lf) (hr : Reachable c a short t (none, fs)) (hl : fs .log = none)
    (hD : bytesOf fs .dat = some D) (hK : bytesOf fs .key = some K) :
    (∃ h w', toolInfo .dat calm ⟨fs, 0, []⟩ = (.ok (.dat D.length h), w') ∧ w'.fs = fs ∧
      h.uid = a.uid ∧ h.appnum = a.appnum ∧ h.keySize = a.keySize) ∧
    (∃ h w', toolInfo .key calm ⟨fs, 0, []⟩ = (.ok (.key K.length h), w') ∧ w'.fs = fs ∧
      h.uid = a.uid ∧ h.appnum = a.appnum ∧ h.keySize = a.keySize ∧ h.salt = a.salt ∧ h.blockSize = a.blockSize ∧ h.loadFactor = lf ∧
      K.length = (h.buckets + 1) * a.blockSize) := by
  obtain ⟨D', K', recs, B, view, hS, _⟩ := settled hc hr hl
  obtain ⟨df, hd, sd⟩ := hS.closed.dat
  obtain ⟨kf, hk, sk⟩ := hS.closed.key
  have e : D' = D := by rw [bytesOf, hd] at hD; simpa [sd.cur] using hD
  have e' : K' = K := by rw [bytesOf, hk] at hK; simpa [sk.cur] using hK
  subst e e'
  have hcf := hS.db.conf
  have hbs := hcf.bs1
  have hb1 := hS.db.b1
  have hDl : 92 ≤ D'.length := by rw [hS.db.dat.eq]; simp
  have hKlen := hS.db.key.len
  have hKl : 104 ≤ K'.length := by
    rw [hKlen]
    exact Nat.le_trans hbs (Nat.le_mul_of_pos_left _ (by omega))
  have hF : ∀ x, IsFault x → Faulty calm → False := fun _ _ h => not_faulty_calm h
  have hkh : getKeyHeader (slice K' 0 104) K'.length = (a.conf lf).kh c.H B := by
    have := get_kh (v := K') (B := B) (c := c) hcf hS.db.key.head K'.length
    rw [hKlen, Nat.mul_div_cancel _ (by omega)] at this
    rw [hKlen]
    exact this
  have td : slice D' 0 8 = datType := by
    rw [hS.db.dat.eq]; rfl
  have tk : slice K' 0 8 = keyType := by
    have : slice K' 0 8 = (K'.take 104).take 8 := by rw [take_eq_slice', List.take_take]; rfl
    rw [this, hS.db.key.head]; rfl
  constructor
  · have key : wp calm (toolInfo .dat) (fun i w' => i = .dat D'.length (a.conf lf).dh ∧ w'.fs = fs) (fun _ _ => False) ⟨fs, 0, []⟩ := by
      unfold toolInfo
      apply wp_bind
      refine wp_fOpen (by exact hd) ?_ hF
      apply wp_bind
      refine wp_fSize (f := df) (by exact hd) ?_ hF
      rw [sd.cur, if_neg (by omega)]
      apply wp_bind
      refine wp_fRead (f := df) (by exact hd) (by rw [sd.cur]; omega) ?_ hF
      rw [sd.cur, if_pos td]
      apply wp_bind
      refine wp_fRead (f := df) (by exact hd) (by rw [sd.cur]; exact hDl) ?_ hF
      apply wp_ret
      rw [sd.cur, show datHeaderSize = 92 from rfl, get_dh hS.db.dat hcf (List.prefix_refl _)]
      exact ⟨rfl, rfl⟩
    cases hv : toolInfo .dat calm ⟨fs, 0, []⟩ with
    | mk res w' =>
      unfold wp at key
      rw [hv] at key
      cases res with
      | error x => exact key.elim
      | ok i => obtain ⟨rfl, k⟩ := key; exact ⟨_, w', rfl, k, rfl, rfl, rfl⟩
  · have key : wp calm (toolInfo .key) (fun i w' => i = .key K'.length ((a.conf lf).kh c.H B) ∧ w'.fs = fs) (fun _ _ => False) ⟨fs, 0, []⟩ := by
      unfold toolInfo
      apply wp_bind
      refine wp_fOpen (by exact hk) ?_ hF
      apply wp_bind
      refine wp_fSize (f := kf) (by exact hk) ?_ hF
      rw [sk.cur, if_neg (by omega)]
      apply wp_bind
      refine wp_fRead (f := kf) (by exact hk) (by rw [sk.cur]; omega) ?_ hF
      rw [sk.cur, if_neg (by rw [tk]; decide), if_pos tk]
      apply wp_bind
      refine wp_fRead (f := kf) (by exact hk) (by rw [sk.cur]; exact hKl) ?_ hF
      apply wp_bind
      refine wp_fSize (f := kf) (by exact hk) ?_ hF
      apply wp_ret
      rw [sk.cur, show keyHeaderSize = 104 from rfl, hkh]
      exact ⟨rfl, rfl⟩
    cases hv : toolInfo .key calm ⟨fs, 0, []⟩ with
    | mk res w' =>
      unfold wp at key
      rw [hv] at key
      cases res with
      | error x => exact key.elim
      | ok i =>
        obtain ⟨rfl, k⟩ := key
        exact ⟨_, w', rfl, k, rfl, rfl, rfl, rfl, rfl, rfl, hKlen⟩

private theorem demo_tool : ∃ t fs D, Reachable demoCfg demoArgs False t (none, fs) ∧ fs .log = none ∧
    bytesOf fs .dat = some D ∧ D.length < 10000 ∧ (D.drop 92).take 6 = [0, 0, 0, 0, 0, 1] ∧ (inserted t).length ≤ 16 := by
  have h : demoTestClosed demoCfg demoArgs (demoOps.take 16) (fun w => (w.fs .log).isNone &&
      match bytesOf w.fs .dat with | some D => decide (D.length < 10000 ∧ (D.drop 92).take 6 = [0, 0, 0, 0, 0, 1]) | none => false) = true := by
    decide +kernel
  obtain ⟨rets, w, h1, h2⟩ := demo_test_closed (demoOps_sound 16) h
  simp only [Bool.and_eq_true, Option.isNone_iff_eq_none] at h2
  obtain ⟨h2, h3⟩ := h2
  split at h3
  · rename_i D e
    have h3 := of_decide_eq_true h3
    refine ⟨_, w.fs, D, h1, h2, e, h3.1, h3.2, ?_⟩
    have := inserted_labels (demoOps.take 16) rets
    have : (demoOps.take 16).length = 16 := rfl
    omega
  · cases h3

/-- The premises of `C85_visit`, `C85_database`, `C85_info` and `C85_rekey`: the pairs are counted, and a new key file made. -/
example : ∃ t fs m v r w', Creatable demoArgs 32768 ∧ Reachable demoCfg demoArgs False t (none, fs) ∧ fs .log = none ∧
    Answers demoCfg demoArgs.keySize fs m ∧ toolVisit demoCfg calm ⟨fs.set .key none, 0, []⟩ = (.ok r, v) ∧ 1 ≤ r.count ∧
    r.count * 2 ≤ 2 ^ 31 * 227 ∧ toolRekey demoCfg r.count 0 5 calm ⟨fs.set .key none, 0, []⟩ = (.ok (), w') := by
  obtain ⟨t, fs, D, h1, h2, h3, h4, h5, h6⟩ := demo_tool
  obtain ⟨df, D', K, recs, B, view, hd, sd, hS, hlen⟩ := before_rekey demo_creatable h1 h2
  have hra : Rekeyable ⟨4096, .rat 1 2, 1, 5, 0⟩ 32768 :=
    ⟨by decide, by decide, ⟨1, 2, rfl, by decide, by decide, by decide⟩, by decide, by decide, by decide⟩
  obtain ⟨w', h⟩ := C29_succeeds demo_creatable h1 h2 hra (w := ⟨fs.set .key none, 0, []⟩) rfl h3
    (by show D.length + _ * (4096 + 8) + 8 < _; omega)
  have e : D' = D := by rw [bytesOf, hd] at h3; simpa [sd.cur] using h3
  subst e
  have hdat := dataFile_of hS.db.conf hS.db.dat
  have hne : 1 ≤ (pairsOf recs).length := by
    have e := hS.db.dat.eq
    cases recs with
    | nil =>
      have := congrArg List.length h5
      rw [e, List.drop_left' (by simp)] at this
      simp [encRecs] at this
    | cons x xs =>
      cases x with
      | data k v => simp [pairsOf]
      | spill es s =>
        exfalso
        rw [e, List.drop_left' (by simp)] at h5
        have h6 : encRecs (.spill es s :: xs) = putU48 0 ++ (putU16 (bucketSize es.length) ++ encBkt es s ++ encRecs xs) := by
          simp [encRecs, encRec]
        rw [h6, List.take_left' (by simp)] at h5
        revert h5
        decide
  rw [← sd.cur] at hdat
  cases hv : toolVisit demoCfg calm ⟨fs.set .key none, 0, []⟩ with
  | mk res v =>
    rcases (C85_visit (w := ⟨fs.set .key none, 0, []⟩) (by simpa [Fs.set] using hd) hdat rfl hv).2 with ⟨r, rfl, hr⟩ | ⟨h, _⟩
    · have hcnt := hr.count
      rw [values_toRecord] at hcnt
      have hb : ∀ n : Fin 17, 1 ≤ n.val → (match rekeyBuckets n.val (bucketCapacity 4096) (.rat 1 2) with
          | .ok B => B == 1 | .error _ => false) = true := by decide +kernel
      have hb := hb ⟨r.count, by omega⟩ (by show 1 ≤ r.count; omega)
      refine ⟨t, fs, _, v, r, w', demo_creatable, h1, h2, hS.map, hv, by omega, by omega, ?_⟩
      unfold toolRekey rekeyCall
      dsimp only at hb ⊢
      cases hB : rekeyBuckets r.count (bucketCapacity 4096) (.rat 1 2) with
      | error x => rw [hB] at hb; cases hb
      | ok b =>
        rw [hB] at hb
        have : b = 1 := by simpa using hb
        subst this
        exact h
    · exact absurd h not_faulty_calm

/-- Some numbers as they are shown. -/
example : Tool.log2 1000 = 9 ∧ fdec 1234567 = "1,234,567".toList ∧ fdec 100 = "100".toList ∧ fhist [0, 3, 0, 2, 0] = [0, 3, 0, 2] ∧
    hexValue "000000000000beef".toList = 48879 := by
  refine ⟨by decide, by decide +kernel, by decide +kernel, by decide, by decide +kernel⟩

end

end NuDB
