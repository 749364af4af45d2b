import Verif.Proof.Db
/- The invariant that holds at every moment: whatever a crash leaves behind, the log and the
two files determine one of the acceptable databases. -/
namespace NuDB

open Spec

theorem slice_getElem? (p : Bytes) (o n i : Nat) :
    (slice p o n)[i]? = if i < n then p[o + i]? else none := by
  simp only [slice, List.getElem?_take, List.getElem?_drop]

theorem writeAt_getElem? {f bs : Bytes} {o i : Nat} (h : i < o ∨ o + bs.length ≤ i)
    (hi : i < f.length) : (writeAt f o bs)[i]? = f[i]? := by
  unfold writeAt
  split
  · rfl
  · simp only [put, List.append_assoc]
    by_cases h1 : i < o
    · rw [List.getElem?_append_left (by simp; omega), List.getElem?_take, if_pos h1,
        List.getElem?_append_left hi]
    · have e : o - f.length = 0 := by omega
      rw [e, zeros_zero, List.append_nil]
      have hl : (List.take o f).length = o := by simp; omega
      rw [List.getElem?_append_right (by rw [hl]; omega), List.getElem?_append_right (by rw [hl]; omega),
        List.getElem?_drop, hl]
      congr 1; omega

theorem writeAt_getElem?_in {f bs : Bytes} {o i : Nat} (h1 : o ≤ i) (h2 : i < o + bs.length) :
    (writeAt f o bs)[i]? = bs[i - o]? := by
  unfold writeAt
  rw [if_neg (by rintro rfl; simp at h2; omega)]
  simp only [put, List.append_assoc]
  rw [List.getElem?_append_right (by simp; omega), List.getElem?_append_left (by simp; omega)]
  congr 1; simp; omega

theorem writeAt_le_length (f bs : Bytes) (o : Nat) : f.length ≤ (writeAt f o bs).length := by
  by_cases h : bs = []
  · subst h; simp
  · rw [writeAt_length h]; omega

theorem prefix_iff_getElem? {a b : Bytes} :
    a <+: b ↔ a.length ≤ b.length ∧ ∀ i, i < a.length → b[i]? = a[i]? := by
  constructor
  · intro h
    refine ⟨h.length_le, ?_⟩
    obtain ⟨t, rfl⟩ := h
    intro i hi
    rw [List.getElem?_append_left hi]
  · rintro ⟨hl, h⟩
    refine ⟨b.drop a.length, ?_⟩
    apply List.ext_getElem?
    intro i
    by_cases hi : i < a.length
    · rw [List.getElem?_append_left hi, h i hi]
    · rw [List.getElem?_append_right (by omega), List.getElem?_drop]
      congr 1; omega

/-- One log record: bucket number and original bucket. -/
def logRec (view : View) (n : Nat) : Bytes := putU64 n ++ encBkt (view n).1 (view n).2

/-- The log for the original files of lengths `kl` and `dl`. -/
def logBytes (c : Cfg) (cf : Conf) (kl dl : Nat) (view : View) (ns : List Nat) : Bytes :=
  putLogHeader (cf.lh c.H kl dl) ++ ns.flatMap (logRec view)

@[simp] theorem putLogHeader_length (lh : LogHeader) : (putLogHeader lh).length = 62 := rfl

theorem logBytes_append (c : Cfg) (cf : Conf) (kl dl : Nat) (view : View) (a b : List Nat) :
    logBytes c cf kl dl view (a ++ b) = logBytes c cf kl dl view a ++ b.flatMap (logRec view) := by
  simp [logBytes]

theorem logRec_length (view : View) (n : Nat) :
    (logRec view n).length = 8 + bucketSize (view n).1.length := by simp [logRec]

/-- A piece of a record that has not been written completely. -/
def Torn (view : View) (B : Nat) (rest : Bytes) : Prop :=
  rest = [] ∨ ∃ n, n < B ∧ rest <+: logRec view n ∧ rest.length < (logRec view n).length

/-- `v` differs from `K` at most in the buckets `ns`, and after its end. -/
structure Agree (bs : Nat) (K : Bytes) (ns : List Nat) (v : Bytes) : Prop where
  le : K.length ≤ v.length
  same : ∀ i, i < K.length → v[i]? = K[i]? ∨ ∃ n ∈ ns, (n + 1) * bs ≤ i ∧ i < (n + 2) * bs

theorem agree_self (bs : Nat) (K : Bytes) (ns : List Nat) : Agree bs K ns K :=
  ⟨Nat.le_refl _, fun _ _ => .inl rfl⟩

theorem Agree.mono {bs : Nat} {K v : Bytes} {ns ns' : List Nat} (h : Agree bs K ns v)
    (hs : ∀ n ∈ ns, n ∈ ns') : Agree bs K ns' v :=
  ⟨h.le, fun i hi => (h.same i hi).imp id (fun ⟨n, h1, h2⟩ => ⟨n, hs n h1, h2⟩)⟩

/-- Everything needed to restore `D` and `K` from the log content `l`. -/
def Roll (c : Cfg) (cf : Conf) (L : Nat) (D K : Bytes) (l : Bytes) (df kf : FileSt) : Prop :=
  ∃ recs B view ns rest, Db c cf D K recs B view ∧ (∀ n ∈ ns, n < B) ∧
    l = logBytes c cf K.length D.length view ns ++ rest ∧ Torn view B rest ∧ l.length ≤ L ∧
    (∀ v, Version df v → D <+: v) ∧ (∀ v, Version kf v → Agree cf.blockSize K ns v)

/-- The invariant. `Goal` are the databases that recovery may produce. -/
inductive Safe (c : Cfg) (cf : Conf) (L : Nat) (Goal : Bytes → Bytes → Prop) (fs : Fs) : Prop
  | clear (df kf : FileSt) (D K : Bytes) (hd : fs .dat = some df) (hk : fs .key = some kf)
      (hl : fs .log = none) (hg : Goal D K) (sd : Stable df D) (sk : Stable kf K)
  | short (df kf lf : FileSt) (D K : Bytes) (hd : fs .dat = some df) (hk : fs .key = some kf)
      (hl : fs .log = some lf) (hlen : lf.cur.length < 62) (hg : Goal D K) (sd : Stable df D)
      (sk : Stable kf K)
      (img : ∃ D' K', Goal D' K' ∧ ∀ l, Ordered lf l → 62 ≤ l.length → Roll c cf L D' K' l df kf)
  | long (df kf lf : FileSt) (D K : Bytes) (hd : fs .dat = some df) (hk : fs .key = some kf)
      (hl : fs .log = some lf) (hlen : 62 ≤ lf.cur.length) (hg : Goal D K)
      (img : ∀ l, Ordered lf l → 62 ≤ l.length → Roll c cf L D K l df kf)
      (none : ∀ l, Ordered lf l → l.length < 62 → Stable df D ∧ Stable kf K)

theorem Safe.mono {c : Cfg} {cf : Conf} {L : Nat} {G G' : Bytes → Bytes → Prop} {fs : Fs}
    (h : Safe c cf L G fs) (hG : ∀ D K, G D K → G' D K) : Safe c cf L G' fs := by
  cases h with
  | clear df kf D K hd hk hl hg sd sk => exact .clear df kf D K hd hk hl (hG _ _ hg) sd sk
  | short df kf lf D K hd hk hl hlen hg sd sk img =>
    exact .short df kf lf D K hd hk hl hlen (hG _ _ hg) sd sk
      (let ⟨D, K, a, b⟩ := img; ⟨D, K, hG _ _ a, b⟩)
  | long df kf lf D K hd hk hl hlen hg img none =>
    exact .long df kf lf D K hd hk hl hlen (hG _ _ hg) img none

/-- Content of a file after a power failure when all versions start with `D`. -/
theorem unordered_prefix {f : FileSt} {D img : Bytes} (h : ∀ v, Version f v → D <+: v)
    (hi : Unordered f img) : D <+: img := by
  rw [prefix_iff_getElem?]
  obtain ⟨u, hu, h1⟩ := hi.lower
  have hl : D.length ≤ img.length := Nat.le_trans (h u hu).length_le h1
  refine ⟨hl, ?_⟩
  intro i hiD
  rcases hi.bytes i (by omega) with ⟨v, hv, e⟩ | ⟨v, hv, e, _⟩
  · rw [List.getElem?_eq_getElem (by omega), ← e]
    exact (prefix_iff_getElem?.mp (h v hv)).2 i hiD
  · have := (h v hv).length_le; omega

theorem unordered_agree {f : FileSt} {K img : Bytes} {bs : Nat} {ns : List Nat}
    (h : ∀ v, Version f v → Agree bs K ns v) (hi : Unordered f img) : Agree bs K ns img := by
  obtain ⟨u, hu, h1⟩ := hi.lower
  have hl : K.length ≤ img.length := Nat.le_trans (h u hu).le h1
  refine ⟨hl, ?_⟩
  intro i hiK
  rcases hi.bytes i (by omega) with ⟨v, hv, e⟩ | ⟨v, hv, e, _⟩
  · rw [List.getElem?_eq_getElem (by omega), ← e]
    exact (h v hv).same i hiK
  · have := (h v hv).le; omega

theorem Roll.lose {c : Cfg} {cf : Conf} {L : Nat} {D K l di ki : Bytes} {df kf : FileSt}
    (h : Roll c cf L D K l df kf) (hd : Unordered df di) (hk : Unordered kf ki) :
    Roll c cf L D K l (FileSt.clean di) (FileSt.clean ki) := by
  obtain ⟨recs, B, view, ns, rest, h1, h2, h3, h4, h5, h6, h7⟩ := h
  refine ⟨recs, B, view, ns, rest, h1, h2, h3, h4, h5, ?_, ?_⟩
  · intro v hv
    rw [version_clean.mp hv]; exact unordered_prefix h6 hd
  · intro v hv
    rw [version_clean.mp hv]; exact unordered_agree h7 hk

theorem lose_parts {fs fs' : Fs} (h : PowerLoss fs fs') {df kf : FileSt}
    (hd : fs .dat = some df) (hk : fs .key = some kf) :
    ∃ di ki, fs' .dat = some (FileSt.clean di) ∧ fs' .key = some (FileSt.clean ki) ∧
      Unordered df di ∧ Unordered kf ki := by
  have h1 := h .dat
  have h2 := h .key
  rw [hd] at h1
  rw [hk] at h2
  simp only [reduceCtorEq, if_false] at h1 h2
  obtain ⟨di, a, b⟩ := h1
  obtain ⟨ki, a', b'⟩ := h2
  exact ⟨di, ki, a, a', b, b'⟩

/-- The invariant survives a restart. -/
theorem Safe.restart {c : Cfg} {cf : Conf} {L : Nat} {G : Bytes → Bytes → Prop} {fs fs' : Fs}
    (h : Safe c cf L G fs) (hr : Restart fs fs') : Safe c cf L G fs' := by
  rcases hr with rfl | hr
  · exact h
  have logImg : ∀ {lf : FileSt}, fs .log = some lf →
      ∃ l, fs' .log = some (FileSt.clean l) ∧ Ordered lf l := by
    intro lf hl
    have h3 := hr .log
    rw [hl] at h3
    simpa using h3
  cases h with
  | clear df kf D K hd hk hl hg sd sk =>
    obtain ⟨di, ki, e1, e2, u1, u2⟩ := lose_parts hr hd hk
    rw [unordered_stable sd u1] at e1
    rw [unordered_stable sk u2] at e2
    have h3 := hr .log
    rw [hl] at h3
    rcases h3 with h3 | ⟨_, _, h3⟩
    · exact .clear _ _ D K e1 e2 h3 hg (stable_clean D) (stable_clean K)
    · refine .short _ _ _ D K e1 e2 h3 (by show 0 < 62; omega) hg (stable_clean D) (stable_clean K) ⟨D, K, hg, ?_⟩
      intro l' hl' h'
      rw [ordered_clean.mp hl'] at h'
      simp at h'
  | short df kf lf D K hd hk hl hlen hg sd sk img =>
    obtain ⟨di, ki, e1, e2, u1, u2⟩ := lose_parts hr hd hk
    obtain ⟨l, e3, ho⟩ := logImg hl
    by_cases h62 : 62 ≤ l.length
    · obtain ⟨D', K', hg', hroll⟩ := img
      replace hroll := hroll l ho h62
      refine .long _ _ _ D' K' e1 e2 e3 (by simpa using h62) hg' ?_ ?_
      · intro l' hl' _
        rw [ordered_clean.mp hl']; exact hroll.lose u1 u2
      · intro l' hl' h'
        rw [ordered_clean.mp hl'] at h'; omega
    · rw [unordered_stable sd u1] at e1
      rw [unordered_stable sk u2] at e2
      refine .short _ _ _ D K e1 e2 e3 (by simp; omega) hg (stable_clean D) (stable_clean K) ⟨D, K, hg, ?_⟩
      intro l' hl' h'
      rw [ordered_clean.mp hl'] at h'; omega
  | long df kf lf D K hd hk hl hlen hg img none =>
    obtain ⟨di, ki, e1, e2, u1, u2⟩ := lose_parts hr hd hk
    obtain ⟨l, e3, ho⟩ := logImg hl
    by_cases h62 : 62 ≤ l.length
    · refine .long _ _ _ D K e1 e2 e3 (by simpa using h62) hg ?_ ?_
      · intro l' hl' _
        rw [ordered_clean.mp hl']; exact (img l ho h62).lose u1 u2
      · intro l' hl' h'
        rw [ordered_clean.mp hl'] at h'; omega
    · obtain ⟨sd, sk⟩ := none l ho (by omega)
      rw [unordered_stable sd u1] at e1
      rw [unordered_stable sk u2] at e2
      refine .short _ _ _ D K e1 e2 e3 (by simp; omega) hg (stable_clean D) (stable_clean K) ⟨D, K, hg, ?_⟩
      intro l' hl' h'
      rw [ordered_clean.mp hl'] at h'; omega

/-- A prefix of the records consists of complete records and a torn one. -/
theorem torn_split {view : View} {B : Nat} : ∀ {ns : List Nat} {l : Bytes}, (∀ n ∈ ns, n < B) →
    l <+: ns.flatMap (logRec view) →
    ∃ (ns' : List Nat) (rest : Bytes), (∀ n ∈ ns', n ∈ ns) ∧ l = ns'.flatMap (logRec view) ++ rest ∧ Torn view B rest := by
  intro ns
  induction ns with
  | nil =>
    intro l _ h
    refine ⟨[], [], by simp, ?_, .inl rfl⟩
    simpa using h
  | cons n ns ih =>
    intro l hB h
    by_cases hl : (logRec view n).length ≤ l.length
    · simp only [List.flatMap_cons] at h
      have h1 : logRec view n <+: l :=
        List.prefix_of_prefix_length_le (List.prefix_append _ _) h hl
      obtain ⟨t, rfl⟩ := h1
      rw [List.prefix_append_right_inj] at h
      obtain ⟨ns', rest, a, b, d⟩ := ih (fun m hm => hB m (by simp [hm])) h
      refine ⟨n :: ns', rest, ?_, ?_, d⟩
      · intro m hm
        rcases List.mem_cons.mp hm with rfl | hm
        · simp
        · simp [a m hm]
      · rw [b]; simp
    · refine ⟨[], l, by simp, by simp, .inr ⟨n, hB n (by simp), ?_, by omega⟩⟩
      simp only [List.flatMap_cons] at h
      exact List.prefix_of_prefix_length_le h (List.prefix_append _ _) (by omega)

theorem log_split {c : Cfg} {cf : Conf} {kl dl B : Nat} {view : View} {ns : List Nat} {l : Bytes}
    (hB : ∀ n ∈ ns, n < B) (h : l <+: logBytes c cf kl dl view ns) (h62 : 62 ≤ l.length) :
    ∃ (ns' : List Nat) (rest : Bytes), (∀ n ∈ ns', n ∈ ns) ∧ l = logBytes c cf kl dl view ns' ++ rest ∧ Torn view B rest := by
  have h1 : putLogHeader (cf.lh c.H kl dl) <+: l :=
    List.prefix_of_prefix_length_le (List.prefix_append _ _) h (by simpa using h62)
  obtain ⟨t, rfl⟩ := h1
  rw [logBytes, List.prefix_append_right_inj] at h
  obtain ⟨ns', rest, a, b, d⟩ := torn_split hB h
  exact ⟨ns', rest, a, by rw [b]; simp [logBytes], d⟩

end NuDB
