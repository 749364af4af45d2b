import Verif.Proof.ConcStep
/- Steps of threads preserve the invariant. -/
namespace NuDB

open Spec Conc

section
variable {c : Cfg} {cf : Conf} {m : Map} {lo nx : Nat} {F F' : Prop} {x y : Sys} {tr tr' : List Ev} {D : Bytes} {recs : List Rec}
  {view : View} {t : Nat} {q : Pc} {f : Fault}

/-- Only the place changes, the locks stay. -/
theorem Inv.place (h : Inv c cf m lo nx F x tr) (hF : F → F') (e1 : isC q = isC (x.pc t)) (e2 : holdsU q = holdsU (x.pc t))
    (e3 : genOf q = genOf (x.pc t))
    (hq : ∀ D recs view, Core c cf m lo nx F x tr D recs view → ThreadOk cf m F x tr D t (x.pc t) →
      ThreadOk cf m F' x tr D t q) : Inv c cf m lo nx F' (x.goto t q) tr :=
  h.move (t := t) (q := q) hF rfl rfl rfl rfl rfl (h.sh.same e1) (h.ow.same e2) (h.gen.same e3) hq

/-- `u_` is released. -/
theorem Inv.unlockU (h : Inv c cf m lo nx F x tr) (hF : F → F') (e1 : isC q = isC (x.pc t)) (e2 : holdsU (x.pc t) = true)
    (e2' : holdsU q = false) (e3 : genOf q = genOf (x.pc t))
    (hq : ∀ D recs view, Core c cf m lo nx F x tr D recs view → ThreadOk cf m F x tr D t (x.pc t) →
      ThreadOk cf m F' x tr D t q) : Inv c cf m lo nx F' (x.release.goto t q) tr :=
  h.move (t := t) (q := q) hF rfl rfl rfl rfl rfl (h.sh.same e1) (h.ow.drop e2 e2') (h.gen.same e3) hq

/-- `m_` is released. -/
theorem Inv.unlockM (h : Inv c cf m lo nx F x tr) (hF : F → F') (e1 : isC q = false) (e2 : holdsU q = holdsU (x.pc t))
    (e3 : genOf q = genOf (x.pc t))
    (hq : ∀ D recs view, Core c cf m lo nx F x tr D recs view → ThreadOk cf m F x tr D t (x.pc t) →
      ThreadOk cf m F' x tr D t q) : Inv c cf m lo nx F' ((x.unshare t).goto t q) tr :=
  h.move (t := t) (q := q) hF rfl rfl rfl rfl rfl (h.sh.drop e1) (h.ow.same e2) (h.gen.same e3) hq

/-- Both are released. -/
theorem Inv.unlockMU (h : Inv c cf m lo nx F x tr) (hF : F → F') (e1 : isC q = false) (e2 : holdsU (x.pc t) = true)
    (e2' : holdsU q = false) (e3 : genOf q = genOf (x.pc t))
    (hq : ∀ D recs view, Core c cf m lo nx F x tr D recs view → ThreadOk cf m F x tr D t (x.pc t) →
      ThreadOk cf m F' x tr D t q) : Inv c cf m lo nx F' ((x.unshare t).release.goto t q) tr :=
  h.move (t := t) (q := q) hF rfl rfl rfl rfl rfl (h.sh.drop e1) (h.ow.drop e2 e2') (h.gen.same e3) hq

theorem unlock_gen (g : Gentex) (d : Nat) : (g.unlock d).gen = g.gen := by unfold Gentex.unlock; split <;> rfl

/-- A generation is released. -/
theorem Inv.unlockG (h : Inv c cf m lo nx F x tr) (hF : F → F') {d : Nat} (e1 : isC q = isC (x.pc t))
    (e2 : holdsU q = holdsU (x.pc t)) (e3 : genOf (x.pc t) = some d) (e3' : genOf q = none)
    (hq : ∀ D recs view, Core c cf m lo nx F x tr D recs view → ThreadOk cf m F x tr D t (x.pc t) →
      ThreadOk cf m F' x tr D t q) : Inv c cf m lo nx F' ((x.leave d).goto t q) tr :=
  h.move (t := t) (q := q) hF rfl rfl rfl (unlock_gen _ _) rfl (h.sh.same e1) (h.ow.same e2) (h.gen.unlock e3 e3') hq

/-- A generation and `u_` are released. -/
theorem Inv.unlockGU (h : Inv c cf m lo nx F x tr) (hF : F → F') {d : Nat} (e1 : isC q = isC (x.pc t))
    (e2 : holdsU (x.pc t) = true) (e2' : holdsU q = false) (e3 : genOf (x.pc t) = some d) (e3' : genOf q = none)
    (hq : ∀ D recs view, Core c cf m lo nx F x tr D recs view → ThreadOk cf m F x tr D t (x.pc t) →
      ThreadOk cf m F' x tr D t q) : Inv c cf m lo nx F' ((x.leave d).release.goto t q) tr :=
  h.move (t := t) (q := q) hF rfl rfl rfl (unlock_gen _ _) rfl (h.sh.same e1) (h.ow.drop e2 e2') (h.gen.unlock e3 e3') hq

theorem answer_fetch {mm : Map} {k : Bytes} {r : Except Exc Bytes} (h : r = resOf (mm k)) :
    (∀ v, r = .ok v → Answer mm (.fetch k) (.found v)) ∧
    (∀ e, r = .error (.err e) → Answer mm (.fetch k) (.error e)) := by
  constructor
  · intro v hv
    rw [hv] at h
    unfold Answer
    cases hm : mm k with
    | none => rw [hm] at h; cases h
    | some u => rw [hm] at h; simp only [resOf] at h; cases h; show _ = _; simp only [hm]
  · intro e he
    rw [he] at h
    unfold Answer
    cases hm : mm k with
    | none => rw [hm] at h; simp only [resOf] at h; cases h; show _ = _; simp only [hm]
    | some u => rw [hm] at h; cases h

/-- `fetch` ends with a value. -/
theorem fetch_ret {B : Option (Nat × Bytes)} {k v : Bytes}
    (h : During m tr t (.fetch k) (fun mm => Outcome F B D (.ret v) (resOf (mm k)))) : Ended m F' tr t (.found v) := by
  refine During.answered (op := .fetch k) (h.imp ?_)
  intro mm ho
  rcases ho with ⟨_, ho⟩ | ho
  · cases ho
  · exact (answer_fetch ho).1 v rfl

/-- `fetch` ends with an error. -/
theorem fetch_raise {B : Option (Nat × Bytes)} {k : Bytes} {e : Err}
    (h : During m tr t (.fetch k) (fun mm => Outcome F B D (.raise (.err e)) (resOf (mm k)))) (hF : F → F') :
    Ended m F' tr t (.error e) := by
  by_cases hf : F ∧ e = .io
  · rw [hf.2]; exact h.broken (hF hf.1)
  · refine During.answered (op := .fetch k) (h.imp ?_)
    intro mm ho
    rcases ho with ⟨h1, ho⟩ | ho
    · cases ho; exact absurd ⟨h1, rfl⟩ hf
    · exact (answer_fetch ho).2 e rfl

theorem isSome_of {o : Option Bytes} (h : (.ok b : Except Exc Bool) = .ok o.isSome) : b = o.isSome := by
  cases h; rfl

/-- `insert` finds the key. -/
theorem insert_exists {B : Option (Nat × Bytes)} {k v : Bytes}
    (h : During m tr t (.insert k v) (fun _ => True))
    (ho : Outcome F B D (.ret true) (.ok (contents m tr k).isSome)) : Ended m F' tr t (.error .key_exists) := by
  refine During.answered (op := .insert k v) (h.now ?_)
  rcases ho with ⟨_, ho⟩ | ho
  · cases ho
  · have := isSome_of ho
    refine ⟨rfl, fun hn => ?_⟩
    rw [hn] at this; cases this

theorem insert_absent {B : Option (Nat × Bytes)} {k : Bytes}
    (ho : Outcome F B D (.ret false) (.ok (contents m tr k).isSome)) : contents m tr k = none := by
  rcases ho with ⟨_, ho⟩ | ho
  · cases ho
  · have := isSome_of ho
    cases hn : contents m tr k with
    | none => rfl
    | some v => rw [hn] at this; cases this

theorem insert_raise {B : Option (Nat × Bytes)} {k v : Bytes} {e : Err}
    (h : During m tr t (.insert k v) (fun _ => True)) (hF : F → F')
    (ho : Outcome F B D (.raise (.err e)) (.ok (contents m tr k).isSome)) : Ended m F' tr t (.error e) := by
  rcases ho with ⟨h1, ho⟩ | ho
  · cases ho; exact h.broken (hF h1)
  · cases ho

/-- An observable step that changes only the place of the thread: call and return. -/
theorem Inv.observe (h : Inv c cf m lo nx F x tr) {e : Ev} (he : thread e = t) (hc : contents m (tr ++ [e]) = contents m tr)
    (hh : Hist m F (tr ++ [e])) (ha : ∀ t k v, e ≠ .added t k v)
    (e1 : isC q = isC (x.pc t)) (e2 : holdsU q = holdsU (x.pc t)) (e3 : genOf q = genOf (x.pc t))
    (hq : ∀ D recs view, Core c cf m lo nx F x tr D recs view → ThreadOk cf m F x (tr ++ [e]) D t q) :
    Inv c cf m lo nx F (x.goto t q) (tr ++ [e]) := by
  refine ⟨hh, h.owned.other ha, h.bnd.more, ?_, h.sh.same e1, h.ow.same e2, h.gen.same e3⟩
  obtain ⟨D, recs, view, hcore, hth⟩ := h.core
  refine ⟨D, recs, view, (hcore.mono id (List.prefix_append _ _) hc).congr rfl rfl rfl, fun u => ?_⟩
  show ThreadOk cf m F _ _ D u (upd x.pc t q u)
  by_cases hu : u = t
  · subst hu
    rw [updPc_same]
    exact (hq D recs view hcore).congr id rfl rfl rfl rfl
  · rw [updPc_other hu]
    have hne : thread e ≠ u := by rw [he]; exact Ne.symm hu
    exact ((hth u).change (y := x) id (List.prefix_refl _) (fun _ _ h => h.more hne) (fun _ h => h.more hne) (fun _ => hc)
      (fun _ _ _ h => h) (fun _ _ _ _ _ a b => ⟨a, b⟩)).congr id rfl rfl rfl rfl

theorem Core.bkt (h : Core c cf m lo nx F x tr D recs view) {k : Bytes} {n : Nat}
    (hb : bucketIndexA (hashKey c.H x.s.kh.salt k) x.s.buckets x.s.modulus = .ok n) :
    n = bktOf c cf x.s k ∧ n < x.s.buckets := by
  rw [h.ready.hash, bucketIndexA_ok h.ready.mle] at hb
  cases hb
  exact ⟨rfl, h.ready.bkt_lt k⟩

theorem genOk_new (_ : FlOk c cf m lo nx F x tr D recs view) {n : Nat} (hn : x.s.c1.find n = none) : GenOk x x.g.gen n := by
  unfold GenOk
  cases x.fl with
  | idle => trivial
  | prep p => trivial
  | log p => exact fun _ => hn
  | keys p => exact hn

theorem inv_fetchLocked (h : Inv c cf m lo nx F x tr) {key : Bytes} (hpc : x.pc t = .fetch1 key)
    (hs : fetchLocked c x t key = some y) : Inv c cf m lo nx F y tr := by
  unfold fetchLocked at hs
  have found : ∀ it : Item, (∀ D recs view, Core c cf m lo nx F x tr D recs view → kvOf (stored x.s recs) key = some it.data) →
      Inv c cf m lo nx F (x.goto t (.ret (.found it.data))) tr := by
    intro it hit
    refine h.place id (by rw [hpc]; rfl) (by rw [hpc]; rfl) (by rw [hpc]; rfl) ?_
    intro D recs view hcore hth
    rw [hpc] at hth
    refine During.answered (op := .fetch key) (hth.2.now ?_)
    show _ = match contents m tr key with | some v => CRet.found v | none => _
    rw [hcore.cont key hth.1, hit D recs view hcore]
  cases h1 : x.s.p1.find key with
  | some it =>
    rw [h1] at hs; cases hs
    exact found it fun D recs view hcore => (stored_find hcore).1 it h1
  | none =>
    rw [h1] at hs
    cases h0 : x.s.p0.find key with
    | some it =>
      rw [h0] at hs; cases hs
      exact found it fun D recs view hcore => (stored_find hcore).2.1 it h0
    | none =>
      rw [h0] at hs
      simp only at hs
      split at hs
      · cases hs
      · rename_i n hb
        split at hs
        · rename_i blob hblob
          cases hs
          refine h.move (t := t) id rfl rfl rfl rfl rfl (h.sh.add (by rw [hpc]; rfl) rfl) (h.ow.same (by rw [hpc]; rfl))
            (h.gen.same (by rw [hpc]; rfl)) ?_
          intro D recs view hcore hth
          rw [hpc] at hth
          obtain ⟨rfl, hlt⟩ := hcore.bkt hb
          refine ⟨hblob, hth.2.now (.inr ?_)⟩
          rw [hcore.ready.fetchCache hth.1 hblob (fuelOf_le hcore.hasD), hcore.cont key hth.1,
            (stored_find hcore).2.2 h1 h0]
        · rename_i hblob
          cases hs
          refine h.move (t := t) id rfl rfl rfl rfl rfl (h.sh.same (by rw [hpc]; rfl)) (h.ow.same (by rw [hpc]; rfl))
            (h.gen.lock (by rw [hpc]; rfl) rfl) ?_
          intro D recs view hcore hth
          rw [hpc] at hth
          obtain ⟨rfl, hlt⟩ := hcore.bkt hb
          refine ⟨_, hcore.ready.keyBlk hlt hblob, genOk_new hcore.fl hblob, hth.2.now (.inr ?_)⟩
          rw [hcore.ready.fetchDisk hth.1 hblob (fuelOf_le hcore.hasD), hcore.cont key hth.1,
            (stored_find hcore).2.2 h1 h0]

theorem inv_insertLocked (h : Inv c cf m lo nx F x tr) {k v : Bytes} (hpc : x.pc t = .ins2 k v)
    (hs : insertLocked c x t k v = some y) : Inv c cf m lo nx F y tr := by
  unfold insertLocked at hs
  split at hs
  · rename_i hf
    cases hs
    refine h.unlockU id (by rw [hpc]; rfl) (by rw [hpc]; rfl) rfl (by rw [hpc]; rfl) ?_
    intro D recs view hcore hth
    rw [hpc] at hth
    refine During.answered (op := .insert k v) (hth.2.now ⟨rfl, ?_⟩)
    rw [hcore.cont k hth.1.1]
    rcases Bool.or_eq_true_iff.mp hf with hf | hf
    · obtain ⟨it, hit⟩ := Option.isSome_iff_exists.mp hf
      rw [(stored_find hcore).1 it hit]; simp
    · obtain ⟨it, hit⟩ := Option.isSome_iff_exists.mp hf
      rw [(stored_find hcore).2.1 it hit]; simp
  · rename_i hf
    rw [Bool.or_eq_true_iff, not_or] at hf
    have h1 : x.s.p1.find k = none := by simpa using hf.1
    have h0 : x.s.p0.find k = none := by simpa using hf.2
    split at hs
    · cases hs
    · rename_i n hb
      split at hs
      · rename_i blob hblob
        cases hs
        refine h.move (t := t) id rfl rfl rfl rfl rfl (h.sh.add (by rw [hpc]; rfl) rfl) (h.ow.same (by rw [hpc]; rfl))
          (h.gen.same (by rw [hpc]; rfl)) ?_
        intro D recs view hcore hth
        rw [hpc] at hth
        obtain ⟨rfl, hlt⟩ := hcore.bkt hb
        refine ⟨hblob, hth.1, hth.2, .inr ?_⟩
        rw [hcore.cont k hth.1.1, (stored_find hcore).2.2 h1 h0]
        exact hcore.ready.existsCache hth.1.1 hblob (fuelOf_le hcore.hasD)
      · rename_i hblob
        cases hs
        refine h.move (t := t) id rfl rfl rfl rfl rfl (h.sh.same (by rw [hpc]; rfl)) (h.ow.same (by rw [hpc]; rfl))
          (h.gen.lock (by rw [hpc]; rfl) rfl) ?_
        intro D recs view hcore hth
        rw [hpc] at hth
        obtain ⟨rfl, hlt⟩ := hcore.bkt hb
        refine ⟨_, hcore.ready.keyBlk hlt hblob, genOk_new hcore.fl hblob, hth.1, hth.2, .inr ?_⟩
        rw [hcore.cont k hth.1.1, (stored_find hcore).2.2 h1 h0]
        exact hcore.ready.existsDisk hth.1.1 hblob (fuelOf_le hcore.hasD)

theorem eval_whole_ret {rest : Prog Bool} {b : Bool} {B : Option (Nat × Bytes)} :
    eval B D (whole (.ret b) rest) = if b then .ok true else eval B D rest := by
  cases b <;> rfl

/-- One more pair in the pool. -/
theorem Core.add (h : Core c cf m lo nx F x tr D recs view) {k v : Bytes} (hkv : KvOk cf k v) (hn : contents m tr k = none)
    {p1 : Pool} (hp : x.s.p1.insert ⟨hashKey c.H x.s.kh.salt k, k, v⟩ = .ok p1)
    (h1 : y.fs = x.fs) (h2 : y.s = { x.s with p1 := p1 }) (h3 : y.fl = x.fl) :
    Core c cf m lo nx F y (tr ++ [.added t k v]) D recs view := by
  have hpl : p1 = x.s.p1.place ⟨cf.hash c.H k, k, v⟩ := by
    rw [h.ready.hash] at hp
    unfold Pool.insert at hp
    simp only [bind, Except.bind, pure, Except.pure] at hp
    split at hp
    · cases hp
    · cases hp; rfl
  subst hpl
  have hpp := place_perm ⟨cf.hash c.H k, k, v⟩ x.s.p1
  have hperm : (stored y.s recs).Perm ((k, v) :: stored x.s recs) := by
    rw [h2]
    unfold stored
    refine (List.Perm.append_left _ (poolPairs_perm hpp)).trans ?_
    exact List.perm_middle
  have hnd : (((k, v) :: stored x.s recs).map (·.1)).Nodup := by
    rw [List.map_cons, List.nodup_cons]
    refine ⟨?_, h.nodup⟩
    rw [h.cont k hkv.1] at hn
    exact kvOf_none.mp hn
  have hnd' := (hperm.map (·.1)).nodup_iff.mpr hnd
  have hfl := h.fl.mono (F' := F) id (List.prefix_append tr [.added t k v])
  obtain ⟨r1, r2, r3, r4, r5, r6, r7, r8, r9⟩ := h.ready
  refine ⟨?_, ?_, hnd', ?_, ?_, by rw [h2]; exact h.thresh, ?_⟩
  · rw [h1, h2]
    exact ⟨r1, r2, r3, r4, r5, r6, r7, r8, r9⟩
  · intro it hit
    rw [h2] at hit
    rcases List.mem_append.mp hit with hit | hit
    · exact h.each it (List.mem_append.mpr (.inl hit))
    · rcases List.mem_cons.mp (hpp.mem_iff.mp hit) with rfl | hit
      · exact ⟨rfl, hkv.1, hkv.2.1, hkv.2.2⟩
      · exact h.each it (List.mem_append.mpr (.inr hit))
  · intro k' hk'
    rw [contents_added, kvOf_perm hperm hnd']
    unfold Map.add kvOf
    rw [List.find?_cons]
    by_cases hkk : k' = k
    · subst hkk; simp
    · rw [if_neg hkk]
      have : ((k, v).1 == k') = false := by simpa using Ne.symm hkk
      rw [this]
      exact h.cont k' hk'
  · intro e he
    rw [h2] at he
    exact h.ec e he
  · unfold FlOk at *
    rw [h3]
    cases hf : x.fl with
    | idle =>
      rw [hf] at hfl
      rw [h1, h2]
      rcases hfl with hfl | ⟨⟨a1, a2, a3⟩, hfl⟩
      · exact .inl hfl
      · exact .inr ⟨⟨by rw [h2]; exact a1, by rw [h2]; exact a2, a3⟩, hfl⟩
    | prep p =>
      rw [hf] at hfl
      rw [h1, h2]
      refine ⟨hfl.1, ?_⟩
      rcases hfl.2 with hfl | ⟨⟨a1, a2, a3⟩, hfl⟩
      · exact .inl hfl
      · exact .inr ⟨⟨by rw [h2]; exact a1, by rw [h2]; exact a2, a3⟩, hfl⟩
    | log p =>
      rw [hf] at hfl
      rw [h1, h2]
      obtain ⟨b1, ⟨a1, a2, a3⟩, hfl⟩ := hfl
      exact ⟨b1, ⟨by rw [h2]; exact a1, by rw [h2]; exact a2, a3⟩, hfl⟩
    | keys p =>
      rw [hf] at hfl
      rw [h1, h2]
      obtain ⟨b1, ⟨a1, a2, a3⟩, hfl⟩ := hfl
      exact ⟨b1, ⟨by rw [h2]; exact a1, by rw [h2]; exact a2, a3⟩, hfl⟩

theorem inv_add (h : Inv c cf m lo nx F x tr) {k v : Bytes} (hpc : x.pc t = .ins3 k v) {p1 : Pool}
    (hp : x.s.p1.insert ⟨hashKey c.H x.s.kh.salt k, k, v⟩ = .ok p1) :
    Inv c cf m lo nx F ({ x with s := { x.s with p1 := p1 } }.release.goto t (.ret .done)) (tr ++ [.added t k v]) := by
  obtain ⟨D, recs, view, hcore, hth⟩ := h.core
  have ht := hth t
  rw [hpc] at ht
  obtain ⟨hkv, hdu, hn⟩ := ht
  refine ⟨h.hist.other (by intros; exact Ev.noConfusion), h.owned.add hdu hn, h.bnd.more, ?_,
    h.sh.same (by rw [hpc]; rfl), h.ow.drop (by rw [hpc]; rfl) rfl, h.gen.same (by rw [hpc]; rfl)⟩
  refine ⟨D, recs, view, hcore.add hkv hn hp rfl rfl rfl, fun u => ?_⟩
  show ThreadOk cf m F _ _ D u (upd x.pc t _ u)
  by_cases hu : u = t
  · subst hu
    rw [updPc_same]
    exact hdu.adds hn
  · rw [updPc_other hu]
    have hne : thread (.added t k v) ≠ u := Ne.symm hu
    refine (hth u).change id (List.prefix_refl _) (fun _ _ h => h.more hne) (fun _ h => h.more hne) ?_
      (fun _ _ _ h => h) (fun _ _ _ _ _ a b => ⟨a, ?_⟩)
    · intro hU
      exact absurd (h.ow.unique (by rw [hpc]; rfl) hU) hu
    · unfold GenOk at *
      exact b


theorem blkAt_seen (h : Core c cf m lo nx F x tr D recs view) {n g : Nat} {blk : Bytes}
    (hb : KeyBlk cf.blockSize n blk x.fs) (hg : GenOk x g n) : BlkAt (blkRef cf n blk) x.seen :=
  (h.seenBlk hb hg).blkAt

/-- A reading step of a thread. -/
theorem inv_fetchC (h : Inv c cf m lo nx F x tr) (hf : Fault.mild f = true) {key blob : Bytes} {n : Nat} {p : Prog Bytes}
    (hpc : x.pc t = .fetchC key n blob p) {z : Sys × List Ev}
    (hs : (readStep f x.seen p).map (fun q => (x.goto t (.fetchC key n blob q), [])) = some z) :
    Inv c cf m lo nx (F ∨ f ≠ .none) z.1 (tr ++ z.2) := by
  obtain ⟨q, hq, rfl⟩ := Option.map_eq_some_iff.mp hs
  rw [List.append_nil]
  refine h.place Or.inl (by rw [hpc]; rfl) (by rw [hpc]; rfl) (by rw [hpc]; rfl) ?_
  intro D recs view hcore hth
  rw [hpc] at hth
  exact ⟨hth.1, hth.2.imp fun mm ho => ho.step (good_resOf _) hcore.seen (blkAt_none _) hf hq⟩

theorem inv_fetchK (h : Inv c cf m lo nx F x tr) (hf : Fault.mild f = true) {key : Bytes} {n g : Nat} {p : Prog Bytes}
    (hpc : x.pc t = .fetchK key n g p) {z : Sys × List Ev}
    (hs : (readStep f x.seen p).map (fun q => (x.goto t (.fetchK key n g q), [])) = some z) :
    Inv c cf m lo nx (F ∨ f ≠ .none) z.1 (tr ++ z.2) := by
  obtain ⟨q, hq, rfl⟩ := Option.map_eq_some_iff.mp hs
  rw [List.append_nil]
  refine h.place Or.inl (by rw [hpc]; rfl) (by rw [hpc]; rfl) (by rw [hpc]; rfl) ?_
  intro D recs view hcore hth
  rw [hpc] at hth
  obtain ⟨blk, h1, h2, h3⟩ := hth
  exact ⟨blk, h1, h2, h3.imp fun mm ho => ho.step (good_resOf _) hcore.seen (blkAt_seen hcore h1 h2) hf hq⟩

theorem inv_insC (h : Inv c cf m lo nx F x tr) (hf : Fault.mild f = true) {k v blob : Bytes} {n : Nat} {p rest : Prog Bool}
    (hpc : x.pc t = .insC k v n blob p rest) {z : Sys × List Ev}
    (hs : (readStep f x.seen p).map (fun q => (x.goto t (.insC k v n blob q rest), [])) = some z) :
    Inv c cf m lo nx (F ∨ f ≠ .none) z.1 (tr ++ z.2) := by
  obtain ⟨q, hq, rfl⟩ := Option.map_eq_some_iff.mp hs
  rw [List.append_nil]
  refine h.place Or.inl (by rw [hpc]; rfl) (by rw [hpc]; rfl) (by rw [hpc]; rfl) ?_
  intro D recs view hcore hth
  rw [hpc] at hth
  obtain ⟨h1, h2, h3, h4⟩ := hth
  refine ⟨h1, h2, h3, ?_⟩
  rcases h4 with ⟨_, rfl⟩ | h4
  · simp [readStep] at hq
  · cases f with
    | none =>
      right
      have hq' := readStep_bind (k := fun r => if r then .ret true else rest) hq
      rw [show whole q rest = q >>= fun r => if r then .ret true else rest from rfl,
        eval_step hcore.seen (B := none) (blkAt_none _) (by
          rw [show (p >>= fun r => if r = true then Prog.ret true else rest) = whole p rest from rfl, h4]
          exact Good.ok _) hq']
      exact h4
    | fail j => left; exact ⟨.inr Fault.noConfusion, eval_fail hq⟩
    | crash j => cases hf

theorem inv_insS (h : Inv c cf m lo nx F x tr) (hf : Fault.mild f = true) {k v : Bytes} {p : Prog Bool}
    (hpc : x.pc t = .insS k v p) {z : Sys × List Ev}
    (hs : (readStep f x.seen p).map (fun q => (x.goto t (.insS k v q), [])) = some z) :
    Inv c cf m lo nx (F ∨ f ≠ .none) z.1 (tr ++ z.2) := by
  obtain ⟨q, hq, rfl⟩ := Option.map_eq_some_iff.mp hs
  rw [List.append_nil]
  refine h.place Or.inl (by rw [hpc]; rfl) (by rw [hpc]; rfl) (by rw [hpc]; rfl) ?_
  intro D recs view hcore hth
  rw [hpc] at hth
  exact ⟨hth.1, hth.2.1, hth.2.2.step (Good.ok _) hcore.seen (blkAt_none _) hf hq⟩

theorem inv_insK (h : Inv c cf m lo nx F x tr) (hf : Fault.mild f = true) {k v : Bytes} {n g : Nat} {p : Prog Bool}
    (hpc : x.pc t = .insK k v n g p) {z : Sys × List Ev}
    (hs : (readStep f x.seen p).map (fun q => (x.goto t (.insK k v n g q), [])) = some z) :
    Inv c cf m lo nx (F ∨ f ≠ .none) z.1 (tr ++ z.2) := by
  obtain ⟨q, hq, rfl⟩ := Option.map_eq_some_iff.mp hs
  rw [List.append_nil]
  refine h.place Or.inl (by rw [hpc]; rfl) (by rw [hpc]; rfl) (by rw [hpc]; rfl) ?_
  intro D recs view hcore hth
  rw [hpc] at hth
  obtain ⟨blk, h1, h2, h3, h4, h5⟩ := hth
  exact ⟨blk, h1, h2, h3, h4, h5.step (Good.ok _) hcore.seen (blkAt_seen hcore h1 h2) hf hq⟩

theorem Inv.mono (h : Inv c cf m lo nx F x tr) (hF : F → F') : Inv c cf m lo nx F' x tr := by
  refine ⟨h.hist.mono hF, h.owned, h.bnd, ?_, h.sh, h.ow, h.gen⟩
  obtain ⟨D, recs, view, hcore, hth⟩ := h.core
  exact ⟨D, recs, view, hcore.mono hF (List.prefix_refl _) rfl, fun u => (hth u).congr hF rfl rfl rfl rfl⟩

theorem inv_ec (h : Inv c cf m lo nx F x tr) {e : Err} (he : x.s.ec = some e) {op : COp}
    (e1 : isC (x.pc t) = false) (e2 : holdsU (x.pc t) = false) (e3 : genOf (x.pc t) = none)
    (hd : ∀ D, ThreadOk cf m F x tr D t (x.pc t) → During m tr t op (fun _ => True)) :
    Inv c cf m lo nx F (x.goto t (.ret (.error e))) tr := by
  refine h.place id (by rw [e1]; rfl) (by rw [e2]; rfl) (by rw [e3]; rfl) ?_
  intro D recs view hcore hth
  obtain ⟨rfl, hF⟩ := hcore.ec e he
  exact (hd D hth).broken hF

theorem inv_threadStep (h : Inv c cf m lo nx F x tr) (hf : Fault.mild f = true) {es : List Ev}
    (hs : threadStep c x t f = some (y, es)) : Inv c cf m lo nx (F ∨ f ≠ .none) y (tr ++ es) := by
  unfold threadStep at hs
  cases hpc : x.pc t with
  | out => rw [hpc] at hs; cases hs
  | ret r =>
    rw [hpc] at hs; cases hs
    have he : Ended m F tr t r := by
      obtain ⟨D, _, _, _, hth⟩ := h.core
      have := hth t
      rw [hpc] at this
      exact this
    exact (h.observe (t := t) (q := .out) rfl (contents_ret ..) (h.hist.ret he) (by intros; exact Ev.noConfusion) (by rw [hpc]; rfl)
      (by rw [hpc]; rfl) (by rw [hpc]; rfl) (fun _ _ _ _ => trivial)).mono Or.inl
  | fetch0 key =>
    rw [hpc] at hs
    cases he : x.s.ec with
    | some e =>
      simp only [he] at hs; cases hs
      rw [List.append_nil]
      exact (inv_ec h he (op := .fetch key) (by rw [hpc]; rfl) (by rw [hpc]; rfl) (by rw [hpc]; rfl)
        (fun D hth => by rw [hpc] at hth; exact hth.2)).mono Or.inl
    | none =>
      simp only [he] at hs; cases hs
      rw [List.append_nil]
      exact h.place Or.inl (by rw [hpc]; rfl) (by rw [hpc]; rfl) (by rw [hpc]; rfl)
        (fun _ _ _ _ hth => by rw [hpc] at hth; exact hth)
  | fetch1 key =>
    rw [hpc] at hs
    obtain ⟨q, hq, e⟩ := Option.map_eq_some_iff.mp hs
    cases e
    rw [List.append_nil]
    exact (inv_fetchLocked h hpc hq).mono Or.inl
  | fetchC key n blob p =>
    rw [hpc] at hs
    cases p with
    | ret v =>
      cases hs
      rw [List.append_nil]
      refine h.unlockM Or.inl rfl (by rw [hpc]; rfl) (by rw [hpc]; rfl) ?_
      intro D recs view hcore hth
      rw [hpc] at hth
      exact fetch_ret hth.2
    | raise ex =>
      cases ex with
      | err e =>
        cases hs
        rw [List.append_nil]
        refine h.unlockM Or.inl rfl (by rw [hpc]; rfl) (by rw [hpc]; rfl) ?_
        intro D recs view hcore hth
        rw [hpc] at hth
        exact fetch_raise hth.2 Or.inl
      | _ => exact inv_fetchC h hf hpc hs
    | _ => exact inv_fetchC h hf hpc hs
  | fetchK key n g p =>
    rw [hpc] at hs
    cases p with
    | ret v =>
      cases hs
      rw [List.append_nil]
      refine h.unlockG Or.inl (by rw [hpc]; rfl) (by rw [hpc]; rfl) (by rw [hpc]; rfl) rfl ?_
      intro D recs view hcore hth
      rw [hpc] at hth
      obtain ⟨blk, h1, h2, h3⟩ := hth
      exact fetch_ret h3
    | raise ex =>
      cases ex with
      | err e =>
        cases hs
        rw [List.append_nil]
        refine h.unlockG Or.inl (by rw [hpc]; rfl) (by rw [hpc]; rfl) (by rw [hpc]; rfl) rfl ?_
        intro D recs view hcore hth
        rw [hpc] at hth
        obtain ⟨blk, h1, h2, h3⟩ := hth
        exact fetch_raise h3 Or.inl
      | _ => exact inv_fetchK h hf hpc hs
    | _ => exact inv_fetchK h hf hpc hs
  | ins0 k v =>
    rw [hpc] at hs
    cases he : x.s.ec with
    | some e =>
      simp only [he] at hs; cases hs
      rw [List.append_nil]
      exact (inv_ec h he (op := .insert k v) (by rw [hpc]; rfl) (by rw [hpc]; rfl) (by rw [hpc]; rfl)
        (fun D hth => by rw [hpc] at hth; exact hth.2)).mono Or.inl
    | none =>
      simp only [he] at hs; cases hs
      rw [List.append_nil]
      exact h.place Or.inl (by rw [hpc]; rfl) (by rw [hpc]; rfl) (by rw [hpc]; rfl)
        (fun _ _ _ _ hth => by rw [hpc] at hth; exact hth)
  | ins1 k v =>
    rw [hpc] at hs
    cases ho : x.owner with
    | some u => simp only [ho] at hs; cases hs
    | none =>
      simp only [ho] at hs; cases hs
      rw [List.append_nil]
      have hlow := h.ow
      rw [ho] at hlow
      refine h.move (t := t) (q := .ins2 k v) Or.inl rfl rfl rfl rfl rfl (h.sh.same (by rw [hpc]; rfl)) (hlow.take rfl)
        (h.gen.same (by rw [hpc]; rfl)) ?_
      intro D recs view hcore hth
      rw [hpc] at hth
      exact hth
  | ins2 k v =>
    rw [hpc] at hs
    obtain ⟨q, hq, e⟩ := Option.map_eq_some_iff.mp hs
    cases e
    rw [List.append_nil]
    exact (inv_insertLocked h hpc hq).mono Or.inl
  | insC k v n blob p rest =>
    rw [hpc] at hs
    cases p with
    | ret b =>
      cases b with
      | true =>
        cases hs
        rw [List.append_nil]
        refine h.unlockMU Or.inl rfl (by rw [hpc]; rfl) rfl (by rw [hpc]; rfl) ?_
        intro D recs view hcore hth
        rw [hpc] at hth
        refine insert_exists (B := none) (D := D) (F := F) hth.2.2.1 (.inr ?_)
        rcases hth.2.2.2 with ⟨_, h⟩ | h
        · cases h
        · exact h
      | false =>
        cases hs
        rw [List.append_nil]
        refine h.unlockM Or.inl rfl (by rw [hpc]; rfl) (by rw [hpc]; rfl) ?_
        intro D recs view hcore hth
        rw [hpc] at hth
        refine ⟨hth.2.1, hth.2.2.1, .inr ?_⟩
        rcases hth.2.2.2 with ⟨_, h⟩ | h
        · cases h
        · exact h
    | raise ex =>
      cases ex with
      | err e =>
        cases hs
        rw [List.append_nil]
        refine h.unlockMU Or.inl rfl (by rw [hpc]; rfl) rfl (by rw [hpc]; rfl) ?_
        intro D recs view hcore hth
        rw [hpc] at hth
        refine insert_raise (B := none) (D := D) (F := F) hth.2.2.1 Or.inl ?_
        rcases hth.2.2.2 with ⟨a, h⟩ | h
        · cases h; exact .inl ⟨a, rfl⟩
        · cases h
      | _ => exact inv_insC h hf hpc hs
    | _ => exact inv_insC h hf hpc hs
  | insS k v p =>
    rw [hpc] at hs
    cases p with
    | ret b =>
      cases b with
      | true =>
        cases hs
        rw [List.append_nil]
        refine h.unlockU Or.inl (by rw [hpc]; rfl) (by rw [hpc]; rfl) rfl (by rw [hpc]; rfl) ?_
        intro D recs view hcore hth
        rw [hpc] at hth
        exact insert_exists hth.2.1 hth.2.2
      | false =>
        cases hs
        rw [List.append_nil]
        refine h.place Or.inl (by rw [hpc]; rfl) (by rw [hpc]; rfl) (by rw [hpc]; rfl) ?_
        intro D recs view hcore hth
        rw [hpc] at hth
        exact ⟨hth.1, hth.2.1, insert_absent hth.2.2⟩
    | raise ex =>
      cases ex with
      | err e =>
        cases hs
        rw [List.append_nil]
        refine h.unlockU Or.inl (by rw [hpc]; rfl) (by rw [hpc]; rfl) rfl (by rw [hpc]; rfl) ?_
        intro D recs view hcore hth
        rw [hpc] at hth
        exact insert_raise hth.2.1 Or.inl hth.2.2
      | _ => exact inv_insS h hf hpc hs
    | _ => exact inv_insS h hf hpc hs
  | insK k v n g p =>
    rw [hpc] at hs
    cases p with
    | ret b =>
      cases b with
      | true =>
        cases hs
        rw [List.append_nil]
        refine h.unlockGU Or.inl (by rw [hpc]; rfl) (by rw [hpc]; rfl) rfl (by rw [hpc]; rfl) rfl ?_
        intro D recs view hcore hth
        rw [hpc] at hth
        obtain ⟨blk, h1, h2, h3, h4, h5⟩ := hth
        exact insert_exists h4 h5
      | false =>
        cases hs
        rw [List.append_nil]
        refine h.unlockG Or.inl (by rw [hpc]; rfl) (by rw [hpc]; rfl) (by rw [hpc]; rfl) rfl ?_
        intro D recs view hcore hth
        rw [hpc] at hth
        obtain ⟨blk, h1, h2, h3, h4, h5⟩ := hth
        exact ⟨h3, h4, insert_absent h5⟩
    | raise ex =>
      cases ex with
      | err e =>
        cases hs
        rw [List.append_nil]
        refine h.unlockGU Or.inl (by rw [hpc]; rfl) (by rw [hpc]; rfl) rfl (by rw [hpc]; rfl) rfl ?_
        intro D recs view hcore hth
        rw [hpc] at hth
        obtain ⟨blk, h1, h2, h3, h4, h5⟩ := hth
        exact insert_raise h4 Or.inl h5
      | _ => exact inv_insK h hf hpc hs
    | _ => exact inv_insK h hf hpc hs
  | ins3 k v =>
    rw [hpc] at hs
    simp only at hs
    split at hs
    · cases hp : x.s.p1.insert ⟨hashKey c.H x.s.kh.salt k, k, v⟩ with
      | error e => rw [hp] at hs; cases hs
      | ok p1 =>
        rw [hp] at hs; cases hs
        exact (inv_add h hpc hp).mono Or.inl
    · cases hs

theorem inv_call (h : Inv c cf m lo nx F x tr) {op : COp} {es : List Ev} (hs : step c x (.call t op) = some (y, es)) :
    Inv c cf m lo nx F y (tr ++ es) := by
  simp only [step] at hs
  cases hpc : x.pc t with
  | out =>
    rw [hpc] at hs
    simp only at hs
    split at hs
    · rename_i hl
      cases op with
      | fetch k =>
        cases hs
        refine h.observe (t := t) rfl (contents_call ..) (h.hist.other (by intros; exact Ev.noConfusion))
          (by intros; exact Ev.noConfusion) (by rw [hpc]; rfl) (by rw [hpc]; rfl) (by rw [hpc]; rfl) ?_
        intro D recs view hcore
        refine ⟨?_, During.new⟩
        simp only [Legal, beq_iff_eq] at hl
        rw [hl, hcore.ready.ks]
      | insert k v =>
        cases hs
        refine h.observe (t := t) rfl (contents_call ..) (h.hist.other (by intros; exact Ev.noConfusion))
          (by intros; exact Ev.noConfusion) (by rw [hpc]; rfl) (by rw [hpc]; rfl) (by rw [hpc]; rfl) ?_
        intro D recs view hcore
        refine ⟨?_, During.new⟩
        simp only [Legal, Bool.and_eq_true, beq_iff_eq, decide_eq_true_eq] at hl
        exact ⟨by rw [hl.1.1, hcore.ready.ks], hl.1.2, by omega⟩
    · cases hs
  | _ => rw [hpc] at hs; cases hs

end

end NuDB
