import Verif.Props.Lifetime
/-
C16 is false as stated: the number of buckets has a limit that nothing enforces.
-/
namespace NuDB

open Spec

section
variable {c : Cfg} {n : Nat} {short : Prop}

/-- C16 in part, over the whole life of a database: a call ends with a result, or dies because the environment
kills it, or an assertion fails. The latter happens only if the data file comes within 2^33 bytes of 2^48, or if there
might be more than 2^32 buckets after the call. (Missing: these cases; `C16_violated` shows the second one.) -/
theorem C16_lifetime_partial {m : Nat} {so : Option Store} {fs : Fs} {es : List Change} {op : Op} {σ : Schedule}
    {w w' : World} {x : Exc} (hl : Lifetime c n short (.ready m) (so, fs) es) (ha : Allowed n op so)
    (hm : Mild m short σ op so) (hw : w.fs = fs) (h : perform c op so σ w = (.error x, w')) :
    (x = .crash ∧ Disturbed σ) ∨
      (x = .abort ∧ ((∃ s, so = some s ∧ 2 ^ 32 < s.buckets + s.p1.length) ∨ Big w'.fs)) := by
  obtain ⟨st, _, cf, all, hcf, rfl, rfl, hR⟩ := lifetime_held hl
  have h1 := wp_elim_error (perform_sound hcf hR ha hm hw) h
  rcases h1.1 with ⟨rfl, hf⟩ | ⟨rfl, _, hb⟩
  · exact .inl ⟨rfl, hf⟩
  · refine .inr ⟨rfl, ?_⟩
    by_cases hl : ∃ s, so = some s ∧ 2 ^ 32 < s.buckets + s.p1.length
    · exact .inl hl
    · refine .inr (hb (.inr ?_))
      intro s hs
      exact Nat.le_of_not_lt fun h => hl ⟨s, hs, h⟩

/-- C16 in part, for `rekey`: it fails only because of the environment, or because the overflow records do not
fit into 48-bit offsets (an assertion). -/
theorem C16_rekey_partial {fs : Fs} {es : List Change} {D : Bytes} {a : RekeyArgs} {lf : Nat} {σ : Schedule}
    {w w' : World} {x : Exc} (hl : Lifetime c n short .keyless (none, fs) es) (hD : bytesOf fs .dat = some D)
    (hra : Rekeyable a lf) (hw : w.fs = fs) (h : rekey c a σ w = (.error x, w')) :
    ((x = .crash ∨ x = .err .io) ∧ Disturbed σ) ∨ (x = .abort ∧ 2 ^ 48 ≤ D.length * (a.blockSize + 9) + 8) := by
  obtain ⟨st, _, cf, df, D', K, recs, B, view, g1, g2, g3, g4, g5, g6, rfl, rfl⟩ := lifetime_held hl
  have e : D' = D := by
    rw [bytesOf, show fs .dat = _ from g2] at hD
    simpa [g3.cur] using hD
  subst e
  have key := wp_elim_error (rekey_wp hra g6 g2 g3 g5 (hw.trans (set_none_self g4))) h
  rcases key.2 with h | ⟨rfl, h, _⟩
  · exact .inl h
  · refine .inr ⟨rfl, Nat.le_of_not_lt fun hlt => h ?_⟩
    have hcf := (rekeyable_ok hra g6.conf).2
    have hrl : (a.conf cf lf).recLen ≤ a.blockSize + 8 := by
      have : bucketSize (a.conf cf lf).cap ≤ a.blockSize := hcf.cap_le
      unfold Conf.recLen; omega
    have hlen : (pairsOf recs).length ≤ D'.length := by
      rw [g6.dat.eq, List.length_append]
      exact Nat.le_trans (pairsOf_length recs) (Nat.le_add_left _ _)
    have hm := Nat.mul_le_mul hlen hrl
    rw [show a.blockSize + 9 = a.blockSize + 8 + 1 from rfl, Nat.mul_add] at hlt
    omega

end

private theorem calm_any {X : Exc → World → Prop} {w : World} : ∀ x, IsFault x → Faulty calm → X x w :=
  fun _ _ h => absurd h not_faulty_calm

/-- A table with 2^32 buckets that is about to grow: the first insertion of a flush fails the assertion in
`bucket_index`. (For an empty database, to keep this simple.) -/
private theorem full_aborts {c : Cfg} {cf : Conf} {s : Store} {w : World} {D K : Bytes} {recs : List Rec} {view : View}
    {it : Item} (hS : Sess c cf s w.fs D K recs (2 ^ 32) view) (h0 : pairsOf recs = []) (hp : s.p1 = [it])
    (hl : it.data.length ≤ 1000) (hfr : s.thresh ≤ s.frac + 65536) :
    wp calm (flush c s) (fun _ _ => False) (fun x w' => x = .abort ∧ w'.fs .dat = w.fs .dat) w := by
  have hdb := hS.db
  have hcf := hdb.conf
  have h104 := hcf.bs1
  obtain ⟨Bk, hkh⟩ := hS.kh
  obtain ⟨df, hd, sd⟩ := hS.idle.dat
  obtain ⟨kf, hk, sk⟩ := hS.idle.key
  have hlog := hS.idle.log
  have hit := hS.pool.each it (by rw [hp]; simp)
  have hmod : ceilPow2 (2 ^ 32) = 2 ^ 32 := by decide
  unfold flush
  rw [if_neg (by simp [hp])]
  apply wp_bind
  unfold commit
  apply wp_bind
  apply wp_lift_ok (assert_ok (by simp [hp]))
  apply wp_bind
  apply wp_attempt
  obtain ⟨tmp, e1, e2, e3⟩ := ofMem_any (bs := cf.blockSize) (p := c.fresh cf.blockSize) (by simp; omega)
  unfold commitPrepare
  simp only [hkh, hp, hS.ec, hS.buckets, hS.modulus, hmod]
  apply wp_bind
  apply wp_lift_ok e1
  apply wp_bind
  apply wp_fSize (by exact hk) _ calm_any
  apply wp_bind
  apply wp_fSize (by exact hd) _ calm_any
  simp only [sk.cur, sd.cur, Conf.logHeaderOf_kh]
  apply wp_bind
  apply wp_fAppend (by exact hlog) (by rfl) _ (fun _ _ _ h => absurd h not_faulty_calm)
  apply wp_bind
  apply wp_fSync (f := (FileSt.clean []).push (.write 0 (putLogHeader (cf.lh c.H K.length D.length)))) (by simp) _ calm_any
  apply wp_bind
  apply wp_fSize (f := df) (by simpa using hd) _ calm_any
  apply wp_bind
  unfold appendData
  apply wp_bind
  apply wp_lift_ok (assert_ok (by simp; omega))
  apply wp_bind
  unfold Writer.append
  have hrl : (dataRecord it.key it.data).length ≤ writeSize := by
    simp only [dataRecord, List.length_append, putU48_length, writeSize]
    have := hit.2.1; have := hcf.key2; omega
  simp only [Writer.new, List.length_nil, Nat.zero_add]
  rw [if_neg (by omega)]
  apply wp_bind
  apply wp_ret
  rw [if_neg (by simp only; omega)]
  apply wp_ret
  apply wp_bind
  unfold appendData
  apply wp_ret
  apply wp_ret
  apply wp_bind
  unfold commitInserts
  apply wp_bind
  unfold commitInsert
  apply wp_bind
  unfold commitSplit
  simp only
  rw [if_pos (by omega)]
  apply wp_bind
  have hv := hdb.filed 0 (by omega)
  have hT : (items c cf recs).map (·.1) = [] := by
    have := congrArg List.length (itemsOf_pairs (cf.hash c.H) 92 recs)
    rw [h0] at this
    simp only [List.length_map, List.length_nil] at this
    simp only [items, List.map_eq_nil_iff]
    exact List.eq_nil_of_length_eq_zero this
  have hv0 : (view 0).1 = [] := by
    obtain ⟨L, _, h⟩ := hv.chain
    rw [hT] at h
    have := h.length_eq
    simp only [List.filter_nil, List.length_nil, List.length_append] at this
    exact List.eq_nil_of_length_eq_zero (by omega)
  show wp calm (load c cf.blockSize 0 [] []) _ _ _
  apply wp_load hcf (f := kf) (by simpa using hk) (by rw [sk.cur]; exact hdb.key) hdb.filed (caches_nil cf _ view)
    (by omega) hv.fit hv.lt48 _ calm_any
  intro b1 c1' c0' w1 r1 r2 hC hin hmono hback hc0 hq
  simp only
  apply wp_bind
  apply wp_lift_ok (cache_create_ok (by
    intro h
    rcases hback _ h with h | h
    · cases h
    · cases h))
  apply wp_bind
  unfold split
  rw [if_pos (by rw [r1.size, hv0]; rfl)]
  apply wp_ret
  apply wp_ret
  apply wp_bind
  apply wp_lift_error (x := .abort)
  · rfl
  · refine ⟨rfl, ?_⟩
    rw [hq.fs]
    simp

/-- Arguments of a `rekey` with 2^32 buckets. The load factor is the smallest that a file can hold, which means
that the table grows with every insertion. -/
def bigRekey : RekeyArgs :=
  { blockSize := 120, load := .rat 1 65536, buckets := 2 ^ 32, salt := 5, bufferSize := 250 }

private theorem big_rekeyable : Rekeyable bigRekey 1 where
  salt := by decide
  block := by decide
  load := ⟨1, 65536, rfl, by decide, by decide, by decide⟩
  lf := by decide
  buckets := by decide

/-- C16 as stated is false: an empty database is rebuilt with 2^32 buckets. Inserting one byte and flushing
fails an assertion, although the data file has 92 bytes before and after. No file operation fails. -/
theorem C16_violated : ∃ s es, ∃ w w' : World,
    Lifetime demoCfg 2 False (.ready 120) (some s, w.fs)
      (es ++ [.used (.call .open .done false), .used (.call (.insert [1, 1] [10]) .done false)]) ∧
    flush demoCfg s calm w = (.error .abort, w') ∧
    (∃ D, bytesOf w.fs .dat = some D ∧ D.length = 92) ∧ bytesOf w'.fs .dat = bytesOf w.fs .dat := by
  have h : demoTestClosed demoCfg demoArgs [.open, .close] (fun w => (w.fs .log).isNone &&
      match bytesOf w.fs .dat with | some D => decide (D.length = 92) | none => false) = true := by
    decide +kernel
  obtain ⟨rets, w, h1, h2⟩ := demo_test_closed (by
    intro op h
    rcases List.mem_cons.mp h with rfl | h
    · trivial
    · rcases List.mem_cons.mp h with rfl | h
      · trivial
      · cases h) h
  simp only [Bool.and_eq_true, Option.isNone_iff_eq_none] at h2
  obtain ⟨h2, h3⟩ := h2
  have g1 := (C52_starts demo_creatable h1).removed h2
  obtain ⟨df, D, K, recs, B, view, hd, sd, hS, hf⟩ := before_rekey demo_creatable h1 h2
  have hD : D.length = 92 := by
    rw [show bytesOf w.fs .dat = some D by rw [bytesOf, hd]; simp [sd.cur]] at h3
    simpa using h3
  have hp : pairsOf recs = [] := by
    have e := congrArg List.length hS.db.dat.eq
    have := pairsOf_length recs
    rw [List.length_append, putDatHeader_length] at e
    exact List.eq_nil_of_length_eq_zero (by omega)
  cases hrk : rekey demoCfg bigRekey calm ⟨w.fs.set .key none, 0, []⟩ with
  | mk r w₁ =>
  have hwp := rekey_wp (σ := calm) big_rekeyable hS.db hd sd h2 (w := ⟨w.fs.set .key none, 0, []⟩) rfl
  cases r with
  | error x =>
    have := wp_elim_error hwp hrk
    rcases this.2 with h | h
    · exact absurd h.2 not_faulty_calm
    · refine absurd ?_ h.2.1
      rw [hp, hD]; decide
  | ok u =>
  obtain ⟨rs, view', df', kf, k1, k2, k3, _, k5, k6, k7, _, k8⟩ := wp_elim hwp hrk
  have hrs : encRecs rs = [] := by
    rw [hp] at k8
    exact List.eq_nil_of_length_eq_zero (by simpa using k8)
  rw [hrs, List.append_nil] at k3 k7
  have hp' : pairsOf (recs ++ rs) = [] := by rw [pairsOf_append, pairsOf_spills k1, List.append_nil, hp]
  have g2 := (Lifetime.rekeyed (w := ⟨w.fs.set .key none, 0, []⟩) calm g1 big_rekeyable rfl hrk).settled (fun p => rfl)
  have hC : Closed D kf.cur (fun p => (w₁.fs p).map FileSt.synced) := by
    refine ⟨⟨df'.synced, by simp only [k2]; rfl, ?_⟩, ⟨kf.synced, by simp only [k5]; rfl, ?_⟩, by simp only [k6]; rfl⟩
    · rw [synced_eq, k3]; exact stable_clean _
    · rw [synced_eq]; exact stable_clean _
  obtain ⟨s, w₂, e2, hS2, q1, q2⟩ := wp_calm_ok (wp_open (σ := calm) (L := 0) (w := ⟨_, 0, []⟩)
    (G := fun D' K' => D' = D ∧ K' = kf.cur) (by rintro _ _ ⟨rfl, rfl⟩; exact ⟨_, _, _, k7⟩) (.inl calm_nofail)
    (hC.safe ⟨rfl, rfl⟩)
    (Q := fun s w' => Sess demoCfg _ s w'.fs D kf.cur (recs ++ rs) bigRekey.buckets view' ∧ s.p1 = [] ∧ s.frac = s.thresh / 2) (by
      rintro s w' _ _ _ _ _ ⟨rfl, rfl⟩ _ hS q1 q2 _ _
      exact ⟨hS _ _ _ k7, q1, q2⟩))
  have g3 := g2.used (l := .call .open .done false) (.call (op := .open) (w := ⟨_, 0, []⟩) calm trivial
    ⟨fun _ => .inl calm_nofail, fun _ _ h => by cases h⟩ rfl
    (by simp only [perform, bind, M.bind, M.attempt, e2, M.ret]; rfl) (fun _ _ => rfl))
  have hi := wp_insert (σ := calm) (w := w₂) hS2 (key := [1, 1]) (data := [10]) rfl (by decide) (by decide)
    (Q := fun s' w' => Sess demoCfg _ s' w'.fs D kf.cur (recs ++ rs) bigRekey.buckets view' ∧
      s' = { s with p1 := s.p1.place ⟨_, [1, 1], [10]⟩ }) (X := fun _ _ => False)
    (fun s' w' _ _ h1 h2 => ⟨h1, h2⟩)
    (by intro w' _ h; rw [hp', q1] at h; cases h)
    (fun _ _ _ h => absurd h not_faulty_calm)
  cases hin : insert demoCfg s [1, 1] [10] calm w₂ with
  | mk r w₃ =>
  cases r with
  | error x => exact (wp_elim_error hi hin).elim
  | ok s' =>
  obtain ⟨hS3, hs'⟩ := wp_elim hi hin
  have g4 := g3.used (l := .call (.insert [1, 1] [10]) .done false) (.call (op := .insert [1, 1] [10]) (w := w₂) calm ⟨rfl, by decide, by decide⟩
    ⟨fun h => (by cases h), fun h => h.elim⟩ rfl
    (by simp only [perform, bind, M.bind, M.attempt, hin, M.ret]; rfl) (fun _ _ => rfl))
  have hfl := full_aborts hS3 hp' (it := ⟨_, [1, 1], [10]⟩) (by rw [hs']; simp only [q1]; rfl) (by decide)
    (by
      have ht : s.thresh = 65536 := by
        rw [hS2.thresh]
        show max 65536 (1 * bucketCapacity 120) = 65536
        decide
      rw [hs']
      simp only [q2, ht]
      decide)
  cases hr : flush demoCfg s' calm w₃ with
  | mk r w₄ =>
  cases r with
  | ok u => exact (wp_elim hfl hr).elim
  | error x =>
  obtain ⟨rfl, hdat⟩ := wp_elim_error hfl hr
  obtain ⟨df3, d1, d2⟩ := hS3.idle.dat
  rw [List.append_assoc] at g4
  exact ⟨s', _, w₃, w₄, g4, hr, ⟨D, by rw [bytesOf, d1]; simp [d2.cur], hD⟩, by rw [bytesOf, bytesOf, hdat]⟩

/-- The premises of `C16_lifetime_partial` hold for this flush. -/
example : ∃ so fs es σ w w' x, Lifetime demoCfg 2 False (.ready 120) (so, fs) es ∧ Allowed 2 .flush so ∧
    Mild 120 False σ .flush so ∧ w.fs = fs ∧ perform demoCfg .flush so σ w = (.error x, w') := by
  obtain ⟨s, es, w, w', h1, h2, _⟩ := C16_violated
  refine ⟨some s, w.fs, _, calm, w, w', .abort, h1, trivial, ⟨fun h => (by cases h), fun h => h.elim⟩, rfl, ?_⟩
  simp only [perform, bind, M.bind, h2]

/-- The premises of `C16_rekey_partial` hold for a `rekey` that dies. -/
example : ∃ fs es D σ w w' x, Lifetime demoCfg 2 False .keyless (none, fs) es ∧ bytesOf fs .dat = some D ∧
    Rekeyable demoRekey 49152 ∧ w.fs = fs ∧ rekey demoCfg demoRekey σ w = (.error x, w') := by
  obtain ⟨t, fs, w₁, w₂, h1, h2, h3, _⟩ := C30_stuck_witness
  obtain ⟨df, D, K, recs, B, view, hd, sd, hS, hf⟩ := before_rekey demo_creatable h1 h2
  exact ⟨_, _, D, _, _, w₁, _, (C52_starts demo_creatable h1).removed h2,
    by rw [bytesOf, show (fs.set .key none) .dat = _ from hd]; simp [sd.cur], demo_rekeyable, rfl, h3⟩

end NuDB
