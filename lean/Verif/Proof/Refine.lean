import Verif.Proof.Create
import Verif.Spec.History
/- The code refines the abstract store of `Spec/History`. -/
namespace NuDB

open Spec

theorem inserted_append (a b : List Label) : inserted (a ++ b) = inserted a ++ inserted b :=
  List.filterMap_append

theorem volume_append (a b : List (Bytes × Bytes)) : volume (a ++ b) = volume a + volume b := by
  simp [volume]

theorem volume_perm {a b : List (Bytes × Bytes)} (h : a.Perm b) : volume a = volume b :=
  (h.map _).sum_nat

section
variable {c : Cfg} {cf : Conf} {σ : Schedule} {short : Prop}

/-- Bounds on the size of the files. -/
structure Sized (cf : Conf) (D : Bytes) (ps : List (Bytes × Bytes)) (B : Nat) : Prop where
  dat : D.length ≤ 92 + volume ps + ps.length * (ps.length + 1) * cf.recLen
  key : B ≤ ps.length + 1

/-- The pairs are among `all`, as far as counting goes. -/
structure Few (ps all : List (Bytes × Bytes)) : Prop where
  len : ps.length ≤ all.length
  vol : volume ps ≤ volume all

/-- Databases that hold one of two maps. For the size of the files, a database that did not
start empty counts as one in which in addition some pairs `base` were inserted. -/
def GoalM (c : Cfg) (cf : Conf) (all : List (Bytes × Bytes)) (m₀ m₁ : Map) (D K : Bytes) : Prop :=
  ∃ recs B view, Db c cf D K recs B view ∧
    (∃ base, Sized cf D (base ++ pairsOf recs) B ∧ Few (base ++ pairsOf recs) all) ∧
    (kvOf (pairsOf recs) = m₀ ∨ kvOf (pairsOf recs) = m₁)

/-- Concrete and abstract state. -/
inductive Rel (c : Cfg) (cf : Conf) (short : Prop) (all : List (Bytes × Bytes)) :
    Option Store × Fs → St → Prop
  | opened {s : Store} {fs D K recs B view} (hS : Sess c cf s fs D K recs B view)
      {base} (hz : Sized cf D (base ++ pairsOf recs) B) (hf : Few (base ++ pairsOf recs ++ poolPairs s.p1) all) :
      Rel c cf short all (some s, fs) (.opened (kvOf (pairsOf recs)) (kvOf (poolPairs s.p1)))
  | failed {s : Store} {fs L m₀ m₁} (he : s.ec = some .io) (hp : s.p1 = [])
      (hL : short → L ≤ 62 + 1024 * cf.blockSize) (hs : Safe c cf L (GoalM c cf all m₀ m₁) fs) :
      Rel c cf short all (some s, fs) (.failed m₀ m₁)
  | closed {fs L m₀ m₁} (hL : short → L ≤ 62 + 1024 * cf.blockSize)
      (hs : Safe c cf L (GoalM c cf all m₀ m₁) fs) :
      Rel c cf short all (none, fs) (.closed m₀ m₁)

theorem GoalM.db {all : List (Bytes × Bytes)} {m₀ m₁ : Map} (D K : Bytes) (h : GoalM c cf all m₀ m₁ D K) :
    ∃ recs B view, Db c cf D K recs B view := let ⟨r, B, v, h, _⟩ := h; ⟨r, B, v, h⟩

theorem Few.refl (ps : List (Bytes × Bytes)) : Few ps ps := ⟨Nat.le_refl _, Nat.le_refl _⟩

theorem Few.left {a b all : List (Bytes × Bytes)} (h : Few (a ++ b) all) : Few a all := by
  have h1 := h.len
  have h2 := h.vol
  rw [volume_append] at h2
  rw [List.length_append] at h1
  exact ⟨by omega, by omega⟩

theorem Few.right {a b all : List (Bytes × Bytes)} (h : Few (a ++ b) all) : Few b all := by
  have h1 := h.len
  have h2 := h.vol
  rw [volume_append] at h2
  rw [List.length_append] at h1
  exact ⟨by omega, by omega⟩

theorem encRecs_volume (p : Pool) : (encRecs (recsOf p)).length = volume (poolPairs p) := by
  induction p with
  | nil => rfl
  | cons it p ih =>
    simp only [recsOf, poolPairs, List.map_cons, encRecs_cons, List.length_append, volume, List.sum_cons] at *
    rw [ih]
    simp [encRec, dataRecord]; omega

theorem growSteps_le (t : Nat) : ∀ k x, (growSteps t k x).2 ≤ x.2 + k := by
  intro k
  induction k with
  | zero => intro x; simp [growSteps]
  | succ k ih =>
    intro x
    have h1 := ih (growStep t x)
    have h2 : (growStep t x).2 ≤ x.2 + 1 := by unfold growStep; split <;> simp
    simp only [growSteps]; omega

/-- How bounds change by a commit. -/
theorem Sized.commit {D D1 : Bytes} {ps : List (Bytes × Bytes)} {p : Pool} {B B1 : Nat} (h : Sized cf D ps B)
    (hD : D1.length ≤ D.length + (encRecs (recsOf p)).length + p.length * ((ps.length + p.length + 1) * cf.recLen))
    (hB : B1 ≤ B + p.length) : Sized cf D1 (ps ++ poolPairs p) B1 := by
  have h1 := h.dat
  have h2 := h.key
  have h3 : (poolPairs p).length = p.length := by simp [poolPairs]
  rw [encRecs_volume] at hD
  refine ⟨?_, by rw [List.length_append, h3]; omega⟩
  rw [volume_append, List.length_append, h3]
  have e : ps.length * (ps.length + 1) * cf.recLen + p.length * ((ps.length + p.length + 1) * cf.recLen) ≤
      (ps.length + p.length) * (ps.length + p.length + 1) * cf.recLen := by
    rw [← Nat.mul_assoc, ← Nat.add_mul]
    apply Nat.mul_le_mul_right
    rw [Nat.add_mul ps.length]
    apply Nat.add_le_add_right
    exact Nat.mul_le_mul_left _ (by omega)
  omega

theorem Sized.commit_base {D D1 : Bytes} {base ps : List (Bytes × Bytes)} {p : Pool} {B B1 : Nat}
    (h : Sized cf D (base ++ ps) B)
    (hD : D1.length ≤ D.length + (encRecs (recsOf p)).length + p.length * ((ps.length + p.length + 1) * cf.recLen))
    (hB : B1 ≤ B + p.length) : Sized cf D1 (base ++ (ps ++ poolPairs p)) B1 := by
  rw [← List.append_assoc]
  refine h.commit (Nat.le_trans hD (Nat.add_le_add_left (Nat.mul_le_mul_left _ (Nat.mul_le_mul_right _ ?_)) _)) hB
  rw [List.length_append]; omega

theorem recLen_le (h : cf.Ok) : cf.recLen ≤ 8 + cf.blockSize := by
  have := h.cap_le
  simp only [Conf.recLen]; omega

/-- No commit runs into the limits of the file format. -/
theorem room_of_fits (hcf : cf.Ok) {D : Bytes} {recs : List Rec} {B : Nat} {p : Pool} {all base : List (Bytes × Bytes)}
    (hz : Sized cf D (base ++ pairsOf recs) B) (hf : Few (base ++ pairsOf recs ++ poolPairs p) all) (h : Fits cf.blockSize all) :
    Room cf D B recs p := by
  have h1 := (hz.commit_base (p := p) (D1 := List.replicate (D.length + (encRecs (recsOf p)).length +
    p.length * (((pairsOf recs).length + p.length + 1) * cf.recLen)) 0) (B1 := B + p.length)
    (by simp) (Nat.le_refl _))
  have h2 := h1.dat
  have h3 := h1.key
  have h4 := hf.len
  have h5 := hf.vol
  have h6 := h.1
  have h7 := h.2
  rw [List.length_replicate] at h2
  rw [← List.append_assoc] at h2 h3
  have h8 : (base ++ pairsOf recs ++ poolPairs p).length * ((base ++ pairsOf recs ++ poolPairs p).length + 1) * cf.recLen ≤
      all.length * (all.length + 1) * (8 + cf.blockSize) :=
    Nat.mul_le_mul (Nat.mul_le_mul h4 (by omega)) (recLen_le hcf)
  exact ⟨by omega, by omega⟩

theorem kvOf_nil : kvOf [] = Map.empty := rfl

theorem union_kvOf (a b : List (Bytes × Bytes)) : Map.union (kvOf a) (kvOf b) = kvOf (a ++ b) := by
  funext k; rw [kvOf_append]; rfl

theorem union_empty (m : Map) : Map.union m Map.empty = m := by
  funext k; simp [Map.union, Map.empty]

theorem kvOf_cons (k v : Bytes) (ps : List (Bytes × Bytes)) : kvOf ((k, v) :: ps) = Map.add (kvOf ps) k v := by
  funext k'
  unfold kvOf Map.add
  rw [List.find?_cons]
  by_cases h : k' = k
  · simp [h]
  · rw [if_neg h]
    have : (k == k') = false := by simpa using fun e => h e.symm
    rw [this]

theorem pairsOf_commit {recs rs : List Rec} {p : Pool} (h : Spills cf rs) :
    pairsOf (recs ++ recsOf p ++ rs) = pairsOf recs ++ poolPairs p := by
  rw [pairsOf_append, pairsOf_append, pairsOf_spills h, pairsOf_recsOf, List.append_nil]

/-- Pairs added by a call. -/
def gain (op : Op) (ret : Ret) : List (Bytes × Bytes) := inserted [.call op ret false]

theorem inserted_call (op : Op) (ret : Ret) (x : Bool) : inserted [.call op ret x] = gain op ret := by
  cases op <;> cases ret <;> rfl

theorem Safe.mono_all {L : Nat} {all all' : List (Bytes × Bytes)} {m₀ m₁ : Map} {fs : Fs}
    (h : Safe c cf L (GoalM c cf all m₀ m₁) fs) (he : Few all all') : Safe c cf L (GoalM c cf all' m₀ m₁) fs :=
  h.mono (fun _ _ ⟨r, B, v, a1, ⟨b, a2, a3⟩, a4⟩ =>
    ⟨r, B, v, a1, ⟨b, a2, Nat.le_trans a3.len he.len, Nat.le_trans a3.vol he.vol⟩, a4⟩)

/-- The goal of a commit. -/
theorem goal_of_commit {s : Store} {D0 : Bytes} {recs : List Rec} {B0 : Nat} {all base : List (Bytes × Bytes)}
    (hz : Sized cf D0 (base ++ pairsOf recs) B0) (hf : Few (base ++ pairsOf recs ++ poolPairs s.p1) all) :
    ∀ D K recs' B' view', D0 <+: D → Db c cf D K recs' B' view' →
      pairsOf recs' = pairsOf recs ++ poolPairs s.p1 →
      D.length ≤ D0.length + (encRecs (recsOf s.p1)).length +
        s.p1.length * (((pairsOf recs).length + s.p1.length + 1) * cf.recLen) →
      B' = (growSteps s.thresh s.p1.length (s.frac, B0)).2 →
      GoalM c cf all (kvOf (pairsOf recs)) (Map.union (kvOf (pairsOf recs)) (kvOf (poolPairs s.p1))) D K := by
  intro D K recs' B' view' _ hdb hps hlen hB
  have hB1 : B' ≤ B0 + s.p1.length := by rw [hB]; exact growSteps_le _ _ _
  refine ⟨recs', B', view', hdb, ⟨base, ?_, ?_⟩, .inr ?_⟩
  · rw [hps]; exact hz.commit_base hlen hB1
  · rw [hps, ← List.append_assoc]; exact hf
  · rw [hps, union_kvOf]

/-- The number of buckets stays below 2^32 in the next flush. -/
def Modest (all : List (Bytes × Bytes)) (so : Option Store) : Prop :=
  all.length < 2 ^ 32 ∨ ∀ s, so = some s → s.buckets + s.p1.length ≤ 2 ^ 32

/-- Calls behave as specified. -/
theorem perform_sound {all : List (Bytes × Bytes)} {so : Option Store} {fs : Fs} {st : St} {op : Op} {w : World}
    (hcf : cf.Ok) (hR : Rel c cf short all (so, fs) st) (ha : Allowed cf.keySize op so)
    (hm : Mild cf.blockSize short σ op so) (hw : w.fs = fs) :
    wp σ (perform c op so)
      (fun r w' => ∀ x, (Faulty σ → x = true) → ∃ st', Step st (.call op r.2 x) st' ∧
        Rel c cf short (all ++ gain op r.2) (r.1, w'.fs) st')
      (fun e w' => ((e = .crash ∧ Faulty σ) ∨ (e = .abort ∧ ¬ Fits cf.blockSize all ∧ (Modest all so → Big w'.fs))) ∧
        ∀ fs', Restart w'.fs fs' → ∃ st', Step st (.died op) st' ∧ Rel c cf short all (none, fs') st') w := by
  subst hw
  have hnil : ∀ {op ret}, gain op ret = [] → all ++ gain op ret = all := by
    intro op ret h; rw [h, List.append_nil]
  cases hR with
  | @opened s fs D K recs B view hS base hz hf =>
    have hG0 : GoalM c cf all (kvOf (pairsOf recs)) (Map.union (kvOf (pairsOf recs)) (kvOf (poolPairs s.p1))) D K :=
      ⟨recs, B, view, hS.db, ⟨base, hz, hf.left⟩, .inl rfl⟩
    have hdie : ∀ {w' : World}, Quiet w w' → ∀ fs', Restart w'.fs fs' →
        ∃ st', Step (.opened (kvOf (pairsOf recs)) (kvOf (poolPairs s.p1))) (.died op) st' ∧
          Rel c cf short all (none, fs') st' := by
      intro w' hq fs' hr
      refine ⟨_, .die, .closed (L := 0) (fun _ => Nat.zero_le _) ?_⟩
      exact Safe.restart ((hS.quiet hq).idle.safe hG0) hr
    have hkeep : ∀ {w' : World}, Quiet w w' → Rel c cf short all (some s, w'.fs)
        (.opened (kvOf (pairsOf recs)) (kvOf (poolPairs s.p1))) :=
      fun hq => .opened (hS.quiet hq) hz hf
    have hroom : ¬ Room cf D B recs s.p1 → ¬ Fits cf.blockSize all :=
      fun h h' => h (room_of_fits hcf hz hf h')
    have hcount : Modest all (some s) → B + s.p1.length ≤ 2 ^ 32 := by
      rintro (h | h)
      rotate_left
      · rw [← hS.buckets]; exact h s rfl
      have h1 := hz.key
      have h2 := hf.len
      simp only [List.length_append, poolPairs, List.length_map] at h1 h2
      omega
    cases op with
    | insert k v =>
      unfold perform
      apply wp_bind
      apply wp_attempt
      apply wp_insert hS ha.1 ha.2.1 ha.2.2
      · intro s' w' hq hn hS' he
        simp only
        apply wp_ret
        intro x _
        have hpp := place_perm ⟨cf.hash c.H k, k, v⟩ s.p1
        have hp1 : (poolPairs s'.p1).Perm ((k, v) :: poolPairs s.p1) := by
          rw [he]; exact poolPairs_perm hpp
        have hn' : ((poolPairs s'.p1).map (·.1)).Nodup := by
          have := hS'.pool.nodup
          rw [List.map_append, List.nodup_append] at this
          exact this.2.1
        refine ⟨_, .insertNew (by rw [union_kvOf]; exact hn), ?_⟩
        rw [← kvOf_cons, ← funext (kvOf_perm hp1 hn')]
        refine .opened hS' hz ⟨?_, ?_⟩
        · have h1 := hf.len
          have h2 := hp1.length_eq
          simp only [List.length_append, List.length_cons, gain, inserted, List.filterMap_cons_some, List.filterMap_cons,
            List.filterMap_nil, List.length_nil] at *
          omega
        · have h1 := hf.vol
          have h2 := volume_perm hp1
          rw [volume_append] at h1
          rw [volume_append, volume_append all, h2]
          simp only [gain, inserted, List.filterMap_cons, List.filterMap_nil, volume, List.map_cons, List.sum_cons, List.map_nil, List.sum_nil] at *
          omega
      · intro w' hq hs
        simp only
        apply wp_ret
        intro x _
        obtain ⟨u, hu⟩ := Option.isSome_iff_exists.mp hs
        exact ⟨_, .insertOld (by rw [union_kvOf]; exact hu), by rw [hnil rfl]; exact hkeep hq⟩
      · intro e w' he hfa hq
        rcases he with rfl | rfl
        · exact ⟨.inl ⟨rfl, hfa⟩, hdie hq⟩
        · simp only
          apply wp_ret
          intro x hx
          rw [hx hfa]
          exact ⟨_, .insertErr, by rw [hnil rfl]; exact hkeep hq⟩
    | fetch k =>
      unfold perform
      apply wp_bind
      apply wp_attempt
      apply wp_fetch hS.ready hS.ec ha
      · intro v w' hq hv
        rw [hS.answer] at hv
        simp only
        apply wp_ret
        intro x _
        exact ⟨_, .fetchHit (by rw [union_kvOf]; exact hv), by rw [hnil rfl]; exact hkeep hq⟩
      · intro w' hq hv
        rw [hS.answer] at hv
        simp only
        apply wp_ret
        intro x _
        exact ⟨_, .fetchMiss (by rw [union_kvOf]; exact hv), by rw [hnil rfl]; exact hkeep hq⟩
      · intro e w' he hfa hq
        rcases he with rfl | rfl
        · exact ⟨.inl ⟨rfl, hfa⟩, hdie hq⟩
        · simp only
          apply wp_ret
          intro x hx
          rw [hx hfa]
          exact ⟨_, .fetchErr, by rw [hnil rfl]; exact hkeep hq⟩
    | flush =>
      unfold perform
      apply wp_bind
      have hLs : short → logMax cf s.p1.length ≤ 62 + 1024 * cf.blockSize := by
        intro hh; have := hm.log hh s rfl; unfold logMax; omega
      refine wp_conseq (wp_flush hS (fun _ => Nat.le_refl _) hG0 (goal_of_commit hz hf)
        (Q := fun s' w' => wp σ (match s'.ec with
          | none => M.ret (some s', Ret.done)
          | some e => M.ret (some s', .error e)) (fun r w' => ∀ x, (Faulty σ → x = true) → ∃ st',
            Step (.opened (kvOf (pairsOf recs)) (kvOf (poolPairs s.p1))) (.call .flush r.2 x) st' ∧
            Rel c cf short (all ++ gain .flush r.2) (r.1, w'.fs) st') (fun _ _ => False) w') ?_ ?_)
        (fun _ _ h => wp_conseq h (fun _ _ h => h) (fun _ _ h => h.elim)) ?_
      · intro s' w' D1 K1 rs B1 view1 b1 b2 b3 b4 b5 b6 b7 b8
        simp only [b1.ec]
        apply wp_ret
        intro x _
        have hps := pairsOf_commit (recs := recs) (p := s.p1) b2
        have hB1 : B1 ≤ B + s.p1.length := by
          have := growSteps_le s.thresh s.p1.length (s.frac, B)
          rw [← b7] at this; exact this
        have hr : Rel c cf short (all ++ gain .flush .done) (some s', w'.fs)
            (.opened (kvOf (pairsOf (recs ++ recsOf s.p1 ++ rs))) (kvOf (poolPairs s'.p1))) := by
          rw [hnil rfl]
          refine .opened b1 (base := base) ?_ ?_
          · rw [hps]; exact hz.commit_base b8 hB1
          · rw [hps, b4]; simpa [poolPairs] using hf
        rw [hps, b4] at hr
        rw [← union_kvOf] at hr
        exact ⟨_, .flush, hr⟩
      · intro s' w' hfa hp he hs
        simp only [he]
        apply wp_ret
        intro x hx
        rw [hx hfa]
        exact ⟨_, .flushErr, by rw [hnil rfl]; exact .failed he hp hLs hs⟩
      · rintro e w' ⟨hs, he⟩
        refine ⟨he.imp id (fun h => ⟨h.1, hroom h.2.1, fun hh => h.2.2 (hcount hh)⟩), ?_⟩
        intro fs' hr
        exact ⟨_, .die, .closed hLs (hs.restart hr)⟩
    | close =>
      unfold perform
      apply wp_bind
      have hLs : short → logMax cf s.p1.length ≤ 62 + 1024 * cf.blockSize := by
        intro hh; have := hm.log hh s rfl; unfold logMax; omega
      refine wp_conseq (wp_close hS (fun _ => Nat.le_refl _) hG0 (goal_of_commit hz hf)
        (Q := fun s' w' => wp σ (match s' with
          | none => M.ret (none, Ret.done)
          | some e => M.ret (none, .error e)) (fun r w' => ∀ x, (Faulty σ → x = true) → ∃ st',
            Step (.opened (kvOf (pairsOf recs)) (kvOf (poolPairs s.p1))) (.call .close r.2 x) st' ∧
            Rel c cf short (all ++ gain .close r.2) (r.1, w'.fs) st') (fun _ _ => False) w') ?_ ?_)
        (fun _ _ h => wp_conseq h (fun _ _ h => h) (fun _ _ h => h.elim)) ?_
      · intro w' D1 K1 rs B1 view1 b1 b2 b3 b4 b5 b6 b7
        simp only
        apply wp_ret
        intro x _
        have hps := pairsOf_commit (recs := recs) (p := s.p1) b3
        have hB1 : B1 ≤ B + s.p1.length := by
          rw [b6]; exact growSteps_le s.thresh s.p1.length (s.frac, B)
        refine ⟨_, .close, ?_⟩
        rw [hnil rfl]
        refine .closed (L := 0) (fun _ => Nat.zero_le _) (b1.safe ?_)
        refine ⟨_, _, _, b2, ⟨base, ?_, ?_⟩, .inl ?_⟩
        · rw [hps]; exact hz.commit_base b7 hB1
        · rw [hps, ← List.append_assoc]; exact hf
        · rw [hps, union_kvOf]
      · intro w' hfa hs
        simp only
        apply wp_ret
        intro x hx
        rw [hx hfa]
        exact ⟨_, .closeErr, by rw [hnil rfl]; exact .closed hLs hs⟩
      · rintro e w' ⟨hs, he⟩
        refine ⟨he.imp id (fun h => ⟨h.1, hroom h.2.1, fun hh => h.2.2 (hcount hh)⟩), ?_⟩
        intro fs' hr
        exact ⟨_, .die, .closed hLs (hs.restart hr)⟩
    | «open» => exact ha.elim
  | @failed s fs L m₀ m₁ he hp hL hs =>
    have hfl : flush c s = M.ret s := by unfold flush; rw [if_pos (by simp [hp])]
    cases op with
    | insert k v =>
      unfold perform insert
      simp only [he]
      apply wp_bind
      apply wp_attempt
      apply wp_fail
      simp only
      apply wp_ret
      intro x _
      exact ⟨_, .dead (by simp) (by simp), by rw [hnil rfl]; exact .failed he hp hL hs⟩
    | fetch k =>
      unfold perform fetch
      simp only [he]
      apply wp_bind
      apply wp_attempt
      apply wp_fail
      simp only
      apply wp_ret
      intro x _
      exact ⟨_, .dead (by simp) (by simp), by rw [hnil rfl]; exact .failed he hp hL hs⟩
    | flush =>
      unfold perform
      apply wp_bind
      rw [hfl]
      apply wp_ret
      simp only [he]
      apply wp_ret
      intro x _
      exact ⟨_, .dead (by simp) (by simp), by rw [hnil rfl]; exact .failed he hp hL hs⟩
    | close =>
      unfold perform
      apply wp_bind
      unfold close
      apply wp_bind
      rw [hfl]
      apply wp_ret
      simp only [he]
      apply wp_ret
      simp only
      apply wp_ret
      intro x _
      exact ⟨_, .deadClose, by rw [hnil rfl]; exact .closed hL hs⟩
    | «open» => exact ha.elim
  | @closed fs L m₀ m₁ hL hs =>
    cases op with
    | «open» =>
      unfold perform
      apply wp_bind
      apply wp_attempt
      have hσ : (∀ i k, σ i ≠ .fail k) ∨ L ≤ 62 + 1024 * cf.blockSize := (hm.reads rfl).imp id hL
      refine wp_conseq (wp_open GoalM.db hσ hs (Q := fun s' w' => ∃ m, (m = m₀ ∨ m = m₁) ∧
        Rel c cf short all (some s', w'.fs) (.opened m Map.empty)) ?_) ?_ ?_
      · intro s w' D K recs B view hg hdb hS hp _ _ _
        obtain ⟨recs', B', view', g1, ⟨base, g2, g3⟩, g4⟩ := hg
        have hS' := hS recs' B' view' g1
        have hr : Rel c cf short all (some s, w'.fs) (.opened (kvOf (pairsOf recs')) (kvOf (poolPairs s.p1))) := by
          refine .opened hS' g2 ?_
          rw [hp]; simpa [poolPairs] using g3
        rw [hp] at hr
        exact ⟨_, g4, hr⟩
      · rintro s' w' ⟨m, hmm, hr⟩
        simp only
        apply wp_ret
        intro x _
        rw [hnil rfl]
        rcases hmm with rfl | rfl
        · exact ⟨_, .open₀, hr⟩
        · exact ⟨_, .open₁, hr⟩
      · rintro e w' ⟨hs', h | h⟩
        · obtain ⟨h, hfa⟩ := h
          rcases h with rfl | rfl
          · refine ⟨.inl ⟨rfl, hfa⟩, ?_⟩
            intro fs' hr
            exact ⟨_, .dieClosed, .closed hL (hs'.restart hr)⟩
          · simp only
            apply wp_ret
            intro x hx
            rw [hx hfa]
            exact ⟨_, .openErr, by rw [hnil rfl]; exact .closed hL hs'⟩
        · exact absurd trivial h.2.1
    | insert k v => exact ha.elim
    | fetch k => exact ha.elim
    | flush => exact ha.elim
    | close => exact ha.elim

/-- The configuration of a created database. -/
theorem creatable_ok {a : CreateArgs} {lf : Nat} (h : Creatable a lf) :
    (a.conf lf).Ok ∧ a.load.bad = false ∧ a.load.fixed = .ok lf := by
  obtain ⟨num, den, e1, e2, e3, e4⟩ := h.load
  have hden : 0 < den := by omega
  have hlt : 65536 * num.toNat / den < 65536 := by
    rw [Nat.div_lt_iff_lt_mul hden]; omega
  have hlf := h.lf
  refine ⟨⟨h.uid, h.appnum, h.salt, h.key.1, h.key.2, h.block.1, h.block.2, h.lf, ?_⟩, ?_, ?_⟩
  · simp only [CreateArgs.conf]; omega
  · rw [e1]; simp only [Load.bad, Bool.or_eq_false_iff, decide_eq_false_iff_not]; omega
  · rw [e1]
    simp only [Load.fixed]
    rw [if_neg (by omega), e4, Nat.min_eq_left (by omega)]

theorem wp_elim {α : Type} {m : M α} {Q : α → World → Prop} {X : Exc → World → Prop} {w w' : World} {a : α}
    (h : wp σ m Q X w) (e : m σ w = (.ok a, w')) : Q a w' := by
  unfold wp at h; rw [e] at h; exact h

theorem wp_elim_error {α : Type} {m : M α} {Q : α → World → Prop} {X : Exc → World → Prop} {w w' : World} {x : Exc}
    (h : wp σ m Q X w) (e : m σ w = (.error x, w')) : X x w' := by
  unfold wp at h; rw [e] at h; exact h

/-- After `create`. -/
theorem rel_created {a : CreateArgs} {lf : Nat} {asserts : Bool} {w₀ w₁ : World} (h : Creatable a lf)
    (h0 : ∀ p, w₀.fs p = none) (hc : create c asserts a σ w₀ = (.ok (), w₁)) :
    Rel c (a.conf lf) short [] (none, w₁.fs) (.closed Map.empty Map.empty) := by
  obtain ⟨hcf, hb, hf⟩ := creatable_ok h
  have := wp_elim (wp_create (Q := fun _ w' => Idle (putDatHeader (a.conf lf).dh) (newKey c.H (a.conf lf)) w'.fs)
    hcf hb hf (h0 _) (h0 _) (h0 _) (fun w' hI _ => hI)) hc
  refine .closed (L := 0) (fun _ => Nat.zero_le _) (this.safe ?_)
  refine ⟨[], 1, _, db_new hcf, ⟨[], ⟨by simp [pairsOf, volume], by simp [pairsOf]⟩, Few.refl _⟩, .inl rfl⟩

theorem exec_sound {all : List (Bytes × Bytes)} {x y : Option Store × Fs} {st : St} {l : Label}
    (hcf : cf.Ok) (hR : Rel c cf short all x st) (h : Exec c cf.keySize cf.blockSize short x l y) :
    ∃ st', Step st l st' ∧ Rel c cf short (all ++ inserted [l]) y st' := by
  cases h with
  | @call so so' fs w' op ret x w σ ha hm hw h hx =>
    have h1 := wp_elim (perform_sound hcf hR ha hm hw) h
    have h2 : Faulty σ → x = true := by
      rintro ⟨i, hi⟩
      cases x with
      | true => rfl
      | false => exact absurd (hx rfl i) hi
    obtain ⟨st', a1, a2⟩ := h1 x h2
    exact ⟨st', a1, by rw [inserted_call]; exact a2⟩
  | @died so fs fs' w' op e w σ ha hm hw h he hr =>
    have h1 := wp_elim_error (perform_sound hcf hR ha hm hw) h
    obtain ⟨st', a1, a2⟩ := h1.2 fs' hr
    have e : inserted [Label.died op] = [] := rfl
    exact ⟨st', a1, by rw [e, List.append_nil]; exact a2⟩

theorem run_sound {all : List (Bytes × Bytes)} {x y : Option Store × Fs} {st : St} {t : List Label}
    (hcf : cf.Ok) (hR : Rel c cf short all x st) (h : Run (Exec c cf.keySize cf.blockSize short) x t y) :
    ∃ st', Run Step st t st' ∧ Rel c cf short (all ++ inserted t) y st' := by
  induction h with
  | nil => exact ⟨st, .nil _, by simpa [inserted] using hR⟩
  | snoc h h' ih =>
    obtain ⟨st1, a1, a2⟩ := ih
    obtain ⟨st2, b1, b2⟩ := exec_sound hcf a2 h'
    exact ⟨st2, .snoc a1 b1, by rw [inserted_append, ← List.append_assoc]; exact b2⟩

/-- Every reachable state is related to an abstract state with the same history. -/
theorem simulation {a : CreateArgs} {lf : Nat} {t : List Label} {sys : Option Store × Fs} (hc : Creatable a lf)
    (h : Reachable c a short t sys) :
    ∃ st, Run Step (.closed Map.empty Map.empty) t st ∧ Rel c (a.conf lf) short (inserted t) sys st := by
  obtain ⟨σ, asserts, w₀, w₁, h0, h1, h2⟩ := h
  obtain ⟨st, a1, a2⟩ := run_sound (creatable_ok hc).1 (rel_created hc h0 h1) h2
  exact ⟨st, a1, by simpa using a2⟩

/-- Reading an open store. -/
theorem Sess.lookups {s : Store} {fs : Fs} {D K : Bytes} {recs : List Rec} {B : Nat} {view : View}
    (h : Sess c cf s fs D K recs B view) :
    Lookups c cf.keySize s fs (kvOf (pairsOf recs ++ poolPairs s.p1)) := by
  rintro w rfl k hk
  have h1 : wp calm (fetch c s k) (fun v _ => kvOf (pairsOf recs ++ poolPairs s.p1) k = some v)
      (fun x _ => x = .err .key_not_found ∧ kvOf (pairsOf recs ++ poolPairs s.p1) k = none) w := by
    apply wp_fetch h.ready h.ec hk
    · intro v w' _ hv; rw [h.answer] at hv; exact hv
    · intro w' _ hv; rw [h.answer] at hv; exact ⟨rfl, hv⟩
    · intro x w' _ hf; exact absurd hf not_faulty_calm
  unfold wp at h1
  split at h1
  · rename_i v w' e; rw [e, h1]
  · rename_i x w' e; rw [e, h1.2, h1.1]

theorem calm_nofail : ∀ i k, calm i ≠ .fail k := fun _ _ h => Fault.noConfusion h

theorem wp_calm_ok {α : Type} {m : M α} {Q : α → World → Prop} {P : Fs → Prop} {w : World}
    (h : wp calm m Q (XP calm P True True) w) : ∃ a w', m calm w = (.ok a, w') ∧ Q a w' := by
  unfold wp at h
  split at h
  · rename_i a w' e; exact ⟨a, w', e, h⟩
  · rename_i x w' e
    rcases h.2 with ⟨_, hf⟩ | ⟨_, hf⟩
    · exact absurd hf not_faulty_calm
    · exact absurd trivial hf.1

/-- Recovery and reopening of files in good order. -/
theorem Safe.recovers {L : Nat} {G : Bytes → Bytes → Prop} {fs : Fs}
    (hGdb : ∀ D K, G D K → ∃ recs B view, Db c cf D K recs B view)
    (hs : Safe c cf L G fs) :
    ∃ D K w₁, G D K ∧ recover c calm ⟨fs, 0, []⟩ = (.ok (), w₁) ∧ Closed D K w₁.fs ∧ ∀ recs B view, Db c cf D K recs B view → Answers c cf.keySize fs (kvOf (pairsOf recs)) := by
    obtain ⟨_, w₁, e1, D, K, hC, hG⟩ := wp_calm_ok (wp_recover (σ := calm) (w := ⟨fs, 0, []⟩) hGdb (.inl calm_nofail) hs
      (Q := fun _ w' => ∃ D K, Closed D K w'.fs ∧ G D K) (fun w' D K hC hG _ => ⟨D, K, hC, hG⟩))
    have hs1 : Safe c cf 0 (fun D' K' => D' = D ∧ K' = K) w₁.fs := hC.safe ⟨rfl, rfl⟩
    obtain ⟨s, w₂, e2, hl⟩ := wp_calm_ok (wp_open (σ := calm)
      (by rintro D' K' ⟨rfl, rfl⟩; exact hGdb _ _ hG) (.inl calm_nofail) hs1
      (Q := fun s w' => ∀ recs B view, Db c cf D K recs B view → Lookups c cf.keySize s w'.fs (kvOf (pairsOf recs)))
      (by
        rintro s w' D' K' recs B view ⟨rfl, rfl⟩ _ hS hp _ _ _ recs' B' view' hdb'
        have := (hS recs' B' view' hdb').lookups
        rw [hp] at this
        simpa [poolPairs] using this))
    exact ⟨D, K, w₁, hG, e1, hC, fun recs B view hdb => ⟨w₁, s, w₂, e1, e2, hl recs B view hdb⟩⟩

theorem Safe.answers {L : Nat} {G : Bytes → Bytes → Prop} {fs : Fs}
    (hGdb : ∀ D K, G D K → ∃ recs B view, Db c cf D K recs B view)
    (hs : Safe c cf L G fs) :
    ∃ D K, G D K ∧ ∀ recs B view, Db c cf D K recs B view → Answers c cf.keySize fs (kvOf (pairsOf recs)) :=
  let ⟨D, K, _, h, _, _, h'⟩ := hs.recovers hGdb
  ⟨D, K, h, h'⟩

end

end NuDB
