import Verif.Proof.Heap
/-
The commit on the level of memory, continued: caches and the whole commit.
-/
namespace NuDB.Raw

variable {cfg : Cfg} {bs : Nat}

/-- Layout of memory during a commit: all blocks in use are different. -/
structure Lay (bs : Nat) (h : Ram) (c1 c0 : Blocks) (d1 d0 : Cache) : Prop where
  e1 : c1.content h = d1
  e0 : c0.content h = d0
  keys1 : (c1.map (·.1)).Nodup
  keys0 : (c0.map (·.1)).Nodup
  addrs : ([buf1, buf2] ++ (c1.map (·.2) ++ c0.map (·.2))).Nodup
  lens : ∀ a ∈ [buf1, buf2] ++ (c1.map (·.2) ++ c0.map (·.2)), ∃ p, h[a]? = some p ∧ p.length = bs

theorem find_content (c : Blocks) (h : Ram) (n : Nat) : Cache.find (c.content h) n = (c.find n).map (fun a => h.getD a []) := by
  unfold Cache.find Blocks.find Blocks.content
  induction c with
  | nil => rfl
  | cons e c ih =>
    simp only [List.map_cons, List.find?_cons]
    cases e.1 == n
    · exact ih
    · rfl

theorem Blocks.find_mem {c : Blocks} {n a : Nat} (h : c.find n = some a) : (n, a) ∈ c := by
  unfold Blocks.find at h
  cases hf : List.find? (fun e => e.1 == n) c with
  | none => rw [hf] at h; cases h
  | some e =>
    rw [hf] at h
    have h1 := List.mem_of_find?_eq_some hf
    have h2 := List.find?_some hf
    simp only [beq_iff_eq] at h2
    cases h
    rw [← h2]; exact h1

theorem Blocks.find_none {c : Blocks} {n : Nat} (h : c.find n = none) : n ∉ c.map (·.1) := by
  unfold Blocks.find at h
  rw [Option.map_eq_none_iff, List.find?_eq_none] at h
  intro hm
  obtain ⟨e, he, rfl⟩ := List.mem_map.mp hm
  exact h e he (by simp)

theorem Blocks.find_of_mem {c : Blocks} {n a : Nat} (hn : (c.map (·.1)).Nodup) (hm : (n, a) ∈ c) : c.find n = some a := by
  unfold Blocks.find
  induction c with
  | nil => cases hm
  | cons e c ih =>
    rw [List.map_cons, List.nodup_cons] at hn
    rw [List.find?_cons]
    rcases List.mem_cons.mp hm with rfl | hm
    · simp
    · have : (e.1 == n) = false := by
        simp only [beq_eq_false_iff_ne]
        rintro rfl
        exact hn.1 (List.mem_map.mpr ⟨_, hm, rfl⟩)
      rw [this]
      exact ih hn.2 hm

theorem Blocks.find_append {c : Blocks} {n a : Nat} (h : c.find n = none) : (Blocks.find (c ++ [(n, a)]) n) = some a := by
  unfold Blocks.find at *
  rw [Option.map_eq_none_iff] at h
  simp [List.find?_append, h]

theorem Lay.lt1 {h : Ram} {c1 c0 : Blocks} {d1 d0 : Cache} (L : Lay bs h c1 c0 d1 d0) {n a : Nat} (hm : (n, a) ∈ c1) :
    ∃ p, h[a]? = some p ∧ p.length = bs := L.lens a (by
  simp only [List.mem_append, List.mem_map]
  exact .inr (.inl ⟨_, hm, rfl⟩))

theorem Lay.lt0 {h : Ram} {c1 c0 : Blocks} {d1 d0 : Cache} (L : Lay bs h c1 c0 d1 d0) {n a : Nat} (hm : (n, a) ∈ c0) :
    ∃ p, h[a]? = some p ∧ p.length = bs := L.lens a (by
  simp only [List.mem_append, List.mem_map]
  exact .inr (.inr ⟨_, hm, rfl⟩))

theorem content_congr {c : Blocks} {h h' : Ram} (hh : ∀ e ∈ c, h'[e.2]? = h[e.2]?) : c.content h' = c.content h := by
  unfold Blocks.content
  apply List.map_congr_left
  intro e he
  simp [List.getD, hh e he]

theorem content_grow {c : Blocks} {h t : Ram} (hh : ∀ e ∈ c, e.2 < h.length) : c.content (h ++ t) = c.content h :=
  content_congr (fun e he => by rw [List.getElem?_append_left (hh e he)])

theorem Lay.bound {h : Ram} {c1 c0 : Blocks} {d1 d0 : Cache} (L : Lay bs h c1 c0 d1 d0) {a : Nat}
    (ha : a ∈ [buf1, buf2] ++ (c1.map (·.2) ++ c0.map (·.2))) : a < h.length := by
  obtain ⟨p, hp, _⟩ := L.lens a ha
  exact (List.getElem?_eq_some_iff.mp hp).1

theorem Lay.swap {h : Ram} {c1 c0 : Blocks} {d1 d0 : Cache} (L : Lay bs h c1 c0 d1 d0) : Lay bs h c0 c1 d0 d1 := by
  have hp : ([buf1, buf2] ++ (c1.map (·.2) ++ c0.map (·.2))).Perm ([buf1, buf2] ++ (c0.map (·.2) ++ c1.map (·.2))) :=
    (List.perm_append_comm).append_left _
  exact ⟨L.e0, L.e1, L.keys0, L.keys1, hp.nodup_iff.mp L.addrs, fun a ha => L.lens a (hp.mem_iff.mpr ha)⟩

/-- A new block for `c1`. -/
theorem Lay.add1 {h : Ram} {c1 c0 : Blocks} {d1 d0 : Cache} (L : Lay bs h c1 c0 d1 d0) {n : Nat} {p : Bytes}
    (hn : c1.find n = none) (hp : p.length = bs) :
    Lay bs (h ++ [p]) (c1 ++ [(n, h.length)]) c0 (d1 ++ [(n, p)]) d0 := by
  have hb : ∀ a ∈ [buf1, buf2] ++ (c1.map (·.2) ++ c0.map (·.2)), a < h.length := fun a ha => L.bound ha
  have h1 : ∀ e ∈ c1, e.2 < h.length := fun e he => hb _ (by
    simp only [List.mem_append, List.mem_map]; exact .inr (.inl ⟨_, he, rfl⟩))
  have h0 : ∀ e ∈ c0, e.2 < h.length := fun e he => hb _ (by
    simp only [List.mem_append, List.mem_map]; exact .inr (.inr ⟨_, he, rfl⟩))
  have hperm : ([buf1, buf2] ++ ((c1 ++ [(n, h.length)]).map (·.2) ++ c0.map (·.2))).Perm
      (h.length :: ([buf1, buf2] ++ (c1.map (·.2) ++ c0.map (·.2)))) := by
    have : ([buf1, buf2] ++ ((c1 ++ [(n, h.length)]).map (·.2) ++ c0.map (·.2))) =
        ([buf1, buf2] ++ c1.map (·.2)) ++ h.length :: c0.map (·.2) := by simp
    rw [this]
    refine List.perm_middle.trans ?_
    simp
  refine ⟨?_, ?_, ?_, L.keys0, ?_, ?_⟩
  · rw [← L.e1]
    unfold Blocks.content
    rw [List.map_append]
    congr 1
    · exact content_grow h1
    · simp
  · rw [content_grow h0]; exact L.e0
  · rw [List.map_append, List.nodup_append]
    refine ⟨L.keys1, by simp, ?_⟩
    intro a ha b hb
    simp only [List.map_cons, List.map_nil, List.mem_singleton] at hb
    subst hb
    intro e
    exact Blocks.find_none hn (e ▸ ha)
  · rw [hperm.nodup_iff, List.nodup_cons]
    exact ⟨fun hm => Nat.lt_irrefl _ (hb _ hm), L.addrs⟩
  · intro a ha
    rcases List.mem_cons.mp (hperm.mem_iff.mp ha) with rfl | ha
    · exact ⟨p, by simp, hp⟩
    · obtain ⟨q, hq, hl⟩ := L.lens a ha
      exact ⟨q, by rw [List.getElem?_append_left (hb a ha)]; exact hq, hl⟩

/-- A block of `c1` changes; so may `buf1`. -/
theorem Lay.store {h h' : Ram} {c1 c0 : Blocks} {d1 d0 : Cache} (L : Lay bs h c1 c0 d1 d0) {n a : Nat} {p : Bytes}
    (hm : (n, a) ∈ c1) (hs : Same [a, buf1] h h') (hp : h'[a]? = some p) : Lay bs h' c1 c0 (Cache.store d1 n p) d0 := by
  have hn := L.addrs
  rw [List.nodup_append] at hn
  obtain ⟨hn1, hn2, hn3⟩ := hn
  rw [List.nodup_append] at hn2
  obtain ⟨hn4, hn5, hn6⟩ := hn2
  have hb1 : ∀ e ∈ c1, e.2 ≠ buf1 := fun e he => fun x => hn3 buf1 (by simp) e.2 (by
    simp only [List.mem_append, List.mem_map]; exact .inl ⟨_, he, rfl⟩) x.symm
  have hb0 : ∀ e ∈ c0, e.2 ≠ buf1 := fun e he => fun x => hn3 buf1 (by simp) e.2 (by
    simp only [List.mem_append, List.mem_map]; exact .inr ⟨_, he, rfl⟩) x.symm
  refine ⟨?_, ?_, L.keys1, L.keys0, L.addrs, ?_⟩
  · rw [← L.e1]
    unfold Blocks.content Cache.store
    rw [List.map_map]
    apply List.map_congr_left
    intro e he
    simp only [Function.comp]
    by_cases hen : e.1 = n
    · have : e = (n, a) := by
        have h1 := Blocks.find_of_mem L.keys1 hm
        have h2 := Blocks.find_of_mem L.keys1 (show (e.1, e.2) ∈ c1 from he)
        rw [hen, h1] at h2
        cases h2
        cases e
        simp only at hen
        subst hen
        rfl
      subst this
      simp [List.getD, hp]
    · have hea : e.2 ≠ a := by
        intro hea
        apply hen
        have key : ∀ {l : Blocks}, (l.map (·.2)).Nodup → ∀ x ∈ l, ∀ y ∈ l, x.2 = y.2 → x = y := by
          intro l hl
          induction l with
          | nil => intro x hx; cases hx
          | cons z l ih =>
            rw [List.map_cons, List.nodup_cons] at hl
            intro x hx y hy hxy
            rcases List.mem_cons.mp hx with rfl | hx
            · rcases List.mem_cons.mp hy with rfl | hy
              · rfl
              · exact absurd (List.mem_map.mpr ⟨y, hy, hxy.symm⟩) hl.1
            · rcases List.mem_cons.mp hy with rfl | hy
              · exact absurd (List.mem_map.mpr ⟨x, ‹x ∈ l›, hxy⟩) hl.1
              · exact ih hl.2 x hx y hy hxy
        exact congrArg Prod.fst (key hn4 e he (n, a) hm hea)
      have : h'[e.2]? = h[e.2]? := hs.out _ (by simp [hea, hb1 e he])
      simp [List.getD, this, hen]
  · rw [← L.e0]
    apply content_congr
    intro e he
    refine hs.out _ ?_
    simp only [List.mem_cons, List.not_mem_nil, or_false, not_or]
    refine ⟨fun x => hn6 a ?_ e.2 ?_ x.symm, hb0 e he⟩
    · exact List.mem_map.mpr ⟨_, hm, rfl⟩
    · exact List.mem_map.mpr ⟨_, he, rfl⟩
  · intro b hb
    obtain ⟨q, hq, hl⟩ := L.lens b hb
    have := hs.lens b
    rw [hq] at this
    cases hb' : h'[b]? with
    | none => rw [hb'] at this; cases this
    | some q' =>
      rw [hb'] at this
      refine ⟨q', rfl, ?_⟩
      simp only [Option.map_some, Option.some.injEq] at this
      omega

/-- Only the scratch buffers change. -/
theorem Lay.scratch {h h' : Ram} {c1 c0 : Blocks} {d1 d0 : Cache} (L : Lay bs h c1 c0 d1 d0) (hs : Same [buf1, buf2] h h') :
    Lay bs h' c1 c0 d1 d0 := by
  have hn := L.addrs
  rw [List.nodup_append] at hn
  obtain ⟨hn1, hn2, hn3⟩ := hn
  refine ⟨?_, ?_, L.keys1, L.keys0, L.addrs, ?_⟩
  · rw [← L.e1]
    apply content_congr
    intro e he
    exact hs.out _ (fun hm => hn3 e.2 hm e.2 (by
      simp only [List.mem_append, List.mem_map]; exact .inl ⟨_, he, rfl⟩) rfl)
  · rw [← L.e0]
    apply content_congr
    intro e he
    exact hs.out _ (fun hm => hn3 e.2 hm e.2 (by
      simp only [List.mem_append, List.mem_map]; exact .inr ⟨_, he, rfl⟩) rfl)
  · intro b hb
    obtain ⟨q, hq, hl⟩ := L.lens b hb
    have := hs.lens b
    rw [hq] at this
    cases hb' : h'[b]? with
    | none => rw [hb'] at this; cases this
    | some q' =>
      rw [hb'] at this
      refine ⟨q', rfl, ?_⟩
      simp only [Option.map_some, Option.some.injEq] at this
      omega

@[simp] theorem fresh_length (n : Nat) : (cfg.fresh n).length = n := by simp [Cfg.fresh]

/-- The relation after `cache_t::insert` or `create`. -/
structure Added (h : Ram) (c : Blocks) (d : Cache) (bs n : Nat) (x : Blocks × View × Ram) (y : Cache × Bkt) : Prop where
  blocks : x.1 = c ++ [(n, h.length)]
  cache : y.1 = d ++ [(n, y.2.p)]
  ram : x.2.2 = h ++ [y.2.p]
  holds : Holds x.2.2 x.2.1 y.2
  addr : x.2.1.addr = h.length
  len : y.2.p.length = bs
  absent : c.find n = none

theorem Added.parts {h : Ram} {c : Blocks} {d : Cache} {n : Nat} {c' : Blocks} {v : View} {h' : Ram} {d' : Cache} {b : Bkt}
    (A : Added h c d bs n (c', v, h') (d', b)) : c' = c ++ [(n, h.length)] ∧ d' = d ++ [(n, b.p)] ∧ h' = h ++ [b.p] ∧
      Holds h' v b ∧ v.addr = h.length ∧ b.p.length = bs ∧ c.find n = none :=
  ⟨A.blocks, A.cache, A.ram, A.holds, A.addr, A.len, A.absent⟩

theorem sim_insert {c : Blocks} {d : Cache} {h : Ram} {n : Nat} {v : View} {b : Bkt}
    (hd : c.content h = d) (hv : v.ask h Bkt.compact = b.compact) (hb : v.bs = b.bs) :
    RSim (Added h c d b.bs n) (c.insert cfg h n v) (Cache.insert cfg d n b) := by
  unfold Blocks.insert Cache.insert
  rw [hv, hb]
  refine RSim.bind (RSim.refl _) ?_
  rintro body _ rfl
  refine RSim.bind (R := fun x y => x = y ∧ x.length = b.bs) ?_ ?_
  · cases hp : poke (cfg.fresh b.bs) 0 body with
    | error x => exact .inr rfl
    | ok m => exact ⟨m, rfl, rfl, by rw [poke_len hp]; simp⟩
  rintro m _ ⟨rfl, hl⟩
  subst hd
  rw [find_content]
  cases hf : c.find n with
  | some a => exact .inl (.inl rfl)
  | none =>
    have he : c.emplace n h.length = c ++ [(n, h.length)] := by unfold Blocks.emplace; rw [hf]; rfl
    simp only [he, Blocks.find_append hf]
    refine RSim.bind (Holds.ofAddr (p := m) (by simp)) ?_
    rintro v' b' ⟨h1, h2, rfl⟩
    exact RSim.ret ⟨rfl, rfl, rfl, h1, h2, hl, hf⟩

theorem sim_create {c : Blocks} {d : Cache} {h : Ram} {n : Nat} (hd : c.content h = d) :
    RSim (Added h c d bs n) (c.create cfg h bs n) (Cache.create cfg d bs n) := by
  unfold Blocks.create Cache.create Bkt.ofEmpty
  have h0 : Holds (h ++ [cfg.fresh bs]) ⟨bs, 0, 0, h.length⟩ ⟨bs, 0, 0, cfg.fresh bs⟩ := ⟨by simp, rfl, rfl, rfl⟩
  have hc := h0.change keeps_clear
  cases hb : Bkt.clear ⟨bs, 0, 0, cfg.fresh bs⟩ with
  | error x =>
    have : x = .ub := by
      unfold Bkt.clear poke at hb
      split at hb <;> cases hb
      rfl
    exact .inl (.inl this)
  | ok b =>
    rw [hb] at hc
    obtain ⟨⟨v, h'⟩, h1, h2⟩ := hc
    simp only [h1]
    subst hd
    show RSim _ _ (if (Cache.find (c.content h) n).isSome then _ else _)
    rw [find_content]
    cases hf : c.find n with
    | some a => exact .inl (.inl rfl)
    | none =>
      have he : c.emplace n h.length = c ++ [(n, h.length)] := by unfold Blocks.emplace; rw [hf]; rfl
      have hl : b.p.length = bs := by rw [keeps_clear _ _ hb]; simp
      refine RSim.ret ⟨he, rfl, ?_, h2.holds, h2.addr, hl, hf⟩
      have h3 := h2.same
      dsimp only at h3 ⊢
      apply List.ext_getElem?
      intro i
      by_cases hi : i = h.length
      · subst hi
        have := h2.holds.mem
        rw [show v.addr = h.length from h2.addr] at this
        dsimp only at this
        rw [this]; simp
      · rw [h3.out i (by simpa using hi)]
        by_cases hlt : i < h.length
        · rw [List.getElem?_append_left hlt, List.getElem?_append_left hlt]
        · rw [List.getElem?_eq_none (by simp; omega), List.getElem?_eq_none (by simp; omega)]

/-- `read(File&)` from memory with different garbage. -/
theorem sim_readFile_fresh {v : View} {b b' : Bkt} {h : Ram} {p : Path} {off : Nat} (hb : Holds h v b) (hbs : b'.bs = b.bs)
    (hl : b.p.length = b'.p.length) :
    Sim (fun x y => x.1.ask x.2 Bkt.compact = y.compact ∧ x.1.bs = y.bs ∧ Same [v.addr] h x.2 ∧ y.bs = b.bs ∧ x.1.addr = v.addr) (v.readFile h p off)
      (b'.readFile p off) := by
  intro σ w
  have h1 := sim_readFile (p := p) (off := off) hb σ w
  unfold Bkt.readFile at h1 ⊢
  simp only [Bind.bind, M.bind, M.lift, hbs] at h1 ⊢
  rcases hr : fRead p off (bucketSize (bucketCapacity b.bs)) σ w with ⟨x | data, w'⟩
  · rw [hr] at h1; exact h1
  · rw [hr] at h1
    dsimp only at h1 ⊢
    have hdl : data.length = bucketSize (bucketCapacity b.bs) := by
      unfold fRead fileOp at hr
      split at hr
      · dsimp only at hr
        split at hr
        · split at hr
          · rename_i hh
            cases hr
            rcases hh with hh | hh
            · rw [hh]; simp
            · exact slice_length_of_le hh
          · cases hr
        · cases hr
      · cases hr
      · cases hr
    by_cases hp : data.length ≤ b.p.length
    · have p1 : poke b.p 0 data = .ok (put b.p 0 data) := poke_ok (by omega)
      have p2 : poke b'.p 0 data = .ok (put b'.p 0 data) := poke_ok (by omega)
      rw [p1] at h1
      rw [p2]
      dsimp only at h1 ⊢
      have hsl : ∀ o n, o + n ≤ data.length → slice (put b'.p 0 data) o n = slice (put b.p 0 data) o n := by
        intro o n ho
        unfold put
        simp only [List.take_zero, List.nil_append]
        rw [slice_append_left ho, slice_append_left ho]
      have h8 : 8 ≤ data.length := by rw [hdl]; unfold bucketSize; omega
      have l1 : (put b.p 0 data).length = b.p.length := put_length (by omega)
      have l2 : (put b'.p 0 data).length = b'.p.length := put_length (by omega)
      have o1 : ∀ q : Bytes, 8 ≤ q.length → Bkt.ofMem b.bs q = .ok ⟨b.bs, getU16 (slice q 0 2), getU48 (slice q 2 6), q⟩ := by
        intro q hq
        unfold Bkt.ofMem
        rw [peek_ok (by omega), peek_ok (by omega)]
        rfl
      rw [o1 _ (by omega)] at h1
      rw [o1 _ (by omega), hsl 0 2 (by omega), hsl 2 6 (by omega)]
      dsimp only at h1 ⊢
      by_cases hs : getU16 (slice (put b.p 0 data) 0 2) > bucketCapacity b.bs
      · rw [if_pos hs] at h1 ⊢
        exact h1
      · rw [if_neg hs] at h1 ⊢
        obtain ⟨⟨v', h'⟩, e1, e2⟩ := h1
        refine ⟨_, e1, ?_, e2.holds.bs, e2.same, rfl, e2.addr⟩
        rw [e2.holds.ask]
        unfold Bkt.compact
        have hsz : bucketSize (getU16 (slice (put b.p 0 data) 0 2)) ≤ data.length := by
          rw [hdl]
          unfold bucketSize
          have : getU16 (slice (put b.p 0 data) 0 2) ≤ bucketCapacity b.bs := by omega
          omega
        show peek (put b.p 0 data) 0 _ = peek (put b'.p 0 data) 0 _
        simp only [Bkt.actualSize]
        rw [peek_ok (by omega), peek_ok (by omega), hsl 0 _ (by omega)]
    · have p2 : poke b'.p 0 data = .error .ub := by unfold poke; rw [if_neg (by omega)]
      rw [p2]
      exact .inl (.inl rfl)

/-- The relation after `load`. -/
structure LoadedR (bs n : Nat) (h : Ram) (x : View × Blocks × Blocks × Ram) (y : Bkt × Cache × Cache) : Prop where
  holds : Holds x.2.2.2 x.1 y.1
  lay : Lay bs x.2.2.2 x.2.1 x.2.2.1 y.2.1 y.2.2
  mem : (n, x.1.addr) ∈ x.2.1
  tmp : x.2.2.2[buf1]? = h[buf1]?

theorem ofAddr_bs {a : Nat} {h : Ram} {v : View} (e : View.ofAddr bs a h = .ok v) : v.bs = bs := by
  unfold View.ofAddr at e
  split at e
  · obtain ⟨b, h1, e⟩ := res_bind e
    obtain ⟨_, _, h1⟩ := res_bind h1
    obtain ⟨_, _, h1⟩ := res_bind h1
    cases h1; cases e; rfl
  · cases e

theorem RSim.and {R : α → β → Prop} {P : β → Prop} {r : Res α} {r' : Res β} (h : RSim R r r') (hp : ∀ b, r' = .ok b → P b) :
    RSim (fun a b => R a b ∧ P b) r r' := by
  unfold RSim at *
  cases r' with
  | error x => exact h
  | ok b =>
    obtain ⟨a, ha, hr⟩ := h
    exact ⟨a, ha, hr, hp b rfl⟩

theorem ofMem_bs {p : Bytes} {b : Bkt} (h : Bkt.ofMem bs p = .ok b) : b.bs = bs := by
  obtain ⟨_, _, h⟩ := res_bind h
  obtain ⟨_, _, h⟩ := res_bind h
  cases h; rfl

theorem sim_load {n : Nat} {h : Ram} {c1 c0 : Blocks} {d1 d0 : Cache} (L : Lay bs h c1 c0 d1 d0) :
    Sim (LoadedR bs n h) (rawLoad cfg bs n c1 c0 h) (load cfg bs n d1 d0) := by
  unfold rawLoad load
  rw [← L.e1, ← L.e0, find_content, find_content]
  cases hf1 : c1.find n with
  | some a =>
    have hm := Blocks.find_mem hf1
    obtain ⟨p, hp, hpl⟩ := L.lt1 hm
    simp only [Option.map_some, List.getD, hp, Option.getD_some]
    refine Sim.bind (Sim.lift (Holds.ofAddr hp)) ?_
    rintro v b ⟨h1, h2, h3⟩
    exact Sim.ret ⟨h1, by rw [L.e1, L.e0]; exact L, by rw [h2]; exact hm, rfl⟩
  | none =>
    simp only [Option.map_none]
    cases hf0 : c0.find n with
    | some a =>
      have hm := Blocks.find_mem hf0
      obtain ⟨p, hp, hpl⟩ := L.lt0 hm
      simp only [Option.map_some, List.getD, hp, Option.getD_some]
      refine Sim.bind (Sim.lift ((Holds.ofAddr hp).and (P := fun b => b.bs = bs) (fun b => ofMem_bs))) ?_
      rintro v b ⟨⟨h1, h2, h3⟩, hbs⟩
      refine Sim.bind (Sim.lift (sim_insert rfl (h1.ask _) h1.bs)) ?_
      rintro ⟨c1', v', h'⟩ ⟨d1', b'⟩ A
      obtain ⟨rfl, rfl, rfl, k4, k5, k6, k7⟩ := A.parts
      dsimp only at k4 k5 k6 ⊢
      refine Sim.ret ⟨k4, ?_, by rw [k5]; simp, ?_⟩
      · rw [L.e1, L.e0]
        exact L.add1 k7 (by rw [k6, hbs])
      · exact List.getElem?_append_left (L.bound (by simp))
    | none =>
      simp only [Option.map_none]
      obtain ⟨p2, hp2, hl2⟩ := L.lens buf2 (by simp)
      have hab : RSim (fun v b => Holds h v ⟨b.bs, v.size, v.spill, p2⟩ ∧ v.addr = buf2 ∧ b.bs = bs ∧ b.p.length = bs)
          (View.ofAddr bs buf2 h) (Bkt.ofMem bs (cfg.fresh bs)) := by
        by_cases h8 : 8 ≤ bs
        · unfold View.ofAddr Bkt.ofMem
          rw [hp2]
          simp only
          rw [peek_ok (by omega), peek_ok (by omega), peek_ok (by simp; omega), peek_ok (by simp; omega)]
          exact ⟨_, rfl, ⟨hp2, rfl, rfl, rfl⟩, rfl, rfl, by simp⟩
        · unfold Bkt.ofMem
          by_cases h2 : 2 ≤ bs
          · rw [peek_ok (by simpa using h2)]
            have : peek (cfg.fresh bs) 2 6 = .error .ub := by unfold peek; rw [if_neg (by simp; omega)]
            rw [this]
            exact .inl (.inl rfl)
          · have : peek (cfg.fresh bs) 0 2 = .error .ub := by unfold peek; rw [if_neg (by simp; omega)]
            rw [this]
            exact .inl (.inl rfl)
      refine Sim.bind (Sim.lift hab) ?_
      rintro v b ⟨h1, h2, h3, h4⟩
      refine Sim.bind (sim_readFile_fresh h1 rfl (by rw [h4]; exact hl2)) ?_
      rintro ⟨v', h'⟩ b' ⟨g1, g2, g3, g4, g5⟩
      dsimp only at g1 g2 g3 g4 g5 ⊢
      have L' : Lay bs h' c1 c0 d1 d0 := L.scratch (g3.mono (by rw [h2]; simp))
      have e0 : c0.content h' = c0.content h := L'.e0.trans L.e0.symm
      have e1 : c1.content h' = c1.content h := L'.e1.trans L.e1.symm
      refine Sim.bind (Sim.lift (sim_insert e0 g1 g2)) ?_
      rintro ⟨c0', v2, h''⟩ ⟨d0', b2⟩ A
      obtain ⟨rfl, rfl, rfl, k4, k5, k6, k7⟩ := A.parts
      dsimp only at k4 k5 k6 ⊢
      have L2 : Lay bs (h' ++ [b2.p]) c1 (c0 ++ [(n, h'.length)]) d1 (d0 ++ [(n, b2.p)]) :=
        (L'.swap.add1 k7 (by rw [k6, g4, h3])).swap
      have hlt : v'.addr < h'.length := by
        rw [g5, h2]; exact L'.bound (by simp)
      refine Sim.bind (Sim.lift (sim_insert (b := b') (v := v') (L2.e1.trans L.e1.symm) ?_ g2)) ?_
      · rw [← g1]
        unfold View.ask
        rw [List.getElem?_append_left hlt]
      rintro ⟨c1', v3, h3'⟩ ⟨d1', b3⟩ A'
      obtain ⟨rfl, rfl, rfl, q4, q5, q6, q7⟩ := A'.parts
      dsimp only at q4 q5 q6 ⊢
      refine Sim.ret ⟨q4, ?_, by rw [q5]; simp, ?_⟩
      · rw [L.e1, L.e0]
        exact L2.add1 q7 (by rw [q6, g4, h3])
      · dsimp only
        rw [List.getElem?_append_left (L2.bound (by simp)), List.getElem?_append_left (L'.bound (by simp))]
        exact g3.out _ (by rw [h2]; simp [buf1, buf2])

theorem peek_all (p : Bytes) : peek p 0 p.length = .ok p := by
  rw [peek_ok (by omega)]; simp [slice]

/-- Two blocks of `c1` change; so may `buf1`. -/
theorem Lay.store2 {h h' : Ram} {c1 c0 : Blocks} {d1 d0 : Cache} (L : Lay bs h c1 c0 d1 d0) {n m a b : Nat} {p q : Bytes}
    (hn : (n, a) ∈ c1) (hm : (m, b) ∈ c1) (hne : a ≠ b) (hs : Same [a, b, buf1] h h') (hp : h'[a]? = some p) (hq : h'[b]? = some q) :
    Lay bs h' c1 c0 (Cache.store (Cache.store d1 n p) m q) d0 := by
  obtain ⟨p0, hp0, _⟩ := L.lt1 hn
  have hlt : a < h.length := (List.getElem?_eq_some_iff.mp hp0).1
  have hl : p.length = p0.length := by
    have := hs.lens a
    rw [hp, hp0] at this
    simpa using this
  have s1 : Same [a, buf1] h (h.set a p) := Same.set (by simp) hp0 hl
  have L1 := L.store hn s1 (List.getElem?_set_self hlt)
  refine L1.store hm ⟨?_, ?_, ?_⟩ hq
  · rw [hs.len, List.length_set]
  · intro x; rw [hs.lens, s1.lens]
  · intro x hx
    by_cases hxa : x = a
    · subst hxa; rw [hp, List.getElem?_set_self hlt]
    · rw [List.getElem?_set_ne (fun e => hxa e.symm)]
      exact hs.out x (by simp only [List.mem_cons, List.not_mem_nil, or_false, not_or] at hx ⊢; exact ⟨hxa, hx.1, hx.2⟩)

/-- The relation between the local variables of `commit`. -/
structure WorkR (bs : Nat) (x : RawWork) (y : Work) : Prop where
  lay : Lay bs x.h x.c1 x.c0 y.c1 y.c0
  tmp : Holds x.h x.tmp y.tmp
  addr : x.tmp.addr = buf1
  w : WRel x.w y.w
  frac : x.frac = y.frac
  buckets : x.buckets = y.buckets
  modulus : x.modulus = y.modulus

theorem Lay.ne_buf1 {h : Ram} {c1 c0 : Blocks} {d1 d0 : Cache} (L : Lay bs h c1 c0 d1 d0) {n a : Nat} (hm : (n, a) ∈ c1) : buf1 ≠ a := by
  have hn := L.addrs
  rw [List.nodup_append] at hn
  exact hn.2.2 buf1 (by simp) a (by
    simp only [List.mem_append, List.mem_map]; exact .inl ⟨_, hm, rfl⟩)

theorem Holds.at {h h' : Ram} {v : View} {b : Bkt} (hb : Holds h v b) (e : h'[v.addr]? = h[v.addr]?) : Holds h' v b :=
  ⟨e.trans hb.mem, hb.bs, hb.size, hb.spill⟩

theorem sim_commitSplit {kh : KeyHeader} {thresh : Nat} {x : RawWork} {y : Work} (W : WorkR kh.blockSize x y) :
    Sim (WorkR kh.blockSize) (rawCommitSplit cfg kh thresh x) (commitSplit cfg kh thresh y) := by
  unfold rawCommitSplit commitSplit
  simp only [W.frac, W.buckets, W.modulus]
  by_cases hf : y.frac + 65536 ≥ thresh
  · rw [if_pos hf, if_pos hf]
    generalize (if y.buckets = y.modulus then y.modulus * 2 else y.modulus) = modulus
    refine Sim.bind (sim_load W.lay) ?_
    rintro ⟨v1, c1, c0, h⟩ ⟨b1, d1, d0⟩ ⟨g1, g2, g3, g4⟩
    dsimp only at g1 g2 g3 g4 ⊢
    refine Sim.bind (Sim.lift (sim_create g2.e1)) ?_
    rintro ⟨c1', v2, h'⟩ ⟨d1', b2⟩ A
    obtain ⟨rfl, rfl, rfl, k4, k5, k6, k7⟩ := A.parts
    dsimp only
    have L2 := g2.add1 k7 k6
    have ht : Holds h x.tmp y.tmp := W.tmp.at (by rw [W.addr]; exact g4)
    have m2 : (y.buckets, v2.addr) ∈ c1 ++ [(y.buckets, h.length)] := by rw [k5]; simp
    have m1 : (y.buckets - modulus / 2, v1.addr) ∈ c1 ++ [(y.buckets, h.length)] := List.mem_append_left _ g3
    have hne : v1.addr ≠ v2.addr := by rw [k5]; exact Nat.ne_of_lt g1.lt
    refine Sim.bind (sim_split (ht.grow _) (g1.grow _) k4 hne (by rw [W.addr]; exact L2.ne_buf1 m1) (by rw [W.addr]; exact L2.ne_buf1 m2) W.w) ?_
    rintro ⟨v1', v2', vt', h2, w2⟩ ⟨b1', b2', t', w2'⟩ ⟨q1, q2, q3, q4, q5, q6, q7, q8⟩
    dsimp only at q1 q2 q3 q4 q5 q6 q7 q8 ⊢
    refine Sim.ret ⟨?_, q3, q6.trans W.addr, q8, rfl, rfl, rfl⟩
    have r1 := q1.mem
    have r2 := q2.mem
    rw [q4] at r1
    rw [q5] at r2
    exact L2.store2 m1 m2 hne (by rw [← W.addr]; exact q7) r1 r2
  · rw [if_neg hf, if_neg hf]
    exact Sim.ret ⟨W.lay, W.tmp, W.addr, W.w, rfl, rfl, rfl⟩

theorem sim_commitInsert {kh : KeyHeader} {thresh off : Nat} {it : Item} {x : RawWork} {y : Work} (W : WorkR kh.blockSize x y) :
    Sim (WorkR kh.blockSize) (rawCommitInsert cfg kh thresh it off x) (commitInsert cfg kh thresh it off y) := by
  unfold rawCommitInsert commitInsert
  refine Sim.bind (sim_commitSplit W) ?_
  intro x y W
  rw [W.buckets, W.modulus]
  refine Sim.bind (Sim.refl _) ?_
  rintro n _ rfl
  refine Sim.bind (sim_load W.lay) ?_
  rintro ⟨v1, c1, c0, h⟩ ⟨b1, d1, d0⟩ ⟨g1, g2, g3, g4⟩
  dsimp only at g1 g2 g3 g4 ⊢
  have ht : Holds h x.tmp y.tmp := W.tmp.at (by rw [W.addr]; exact g4)
  refine Sim.bind (sim_spill g1 W.w) ?_
  rintro ⟨v2, h2, w2⟩ ⟨b2, w2'⟩ ⟨k1, k2, k3, k4⟩
  dsimp only at k1 k2 k3 k4 ⊢
  refine Sim.bind (Sim.lift (k1.change (keeps_insert _ _ _))) ?_
  rintro ⟨v3, h3⟩ b3 ⟨q1, q2, q3⟩
  dsimp only at q1 q2 q3 ⊢
  have hs : Same [v1.addr] h h3 := k3.trans (by rw [← k2]; exact q3)
  refine Sim.ret ⟨?_, ?_, W.addr, k4, W.frac, rfl, rfl⟩
  · have r := q1.mem
    rw [q2, k2] at r
    exact g2.store g3 (hs.mono (by simp)) r
  · exact hs.holds ht (by rw [W.addr]; simpa using g2.ne_buf1 g3)

theorem sim_commitInserts {kh : KeyHeader} {thresh : Nat} (l : List (Item × Nat)) : ∀ {x : RawWork} {y : Work}, WorkR kh.blockSize x y →
    Sim (WorkR kh.blockSize) (rawCommitInserts cfg kh thresh l x) (commitInserts cfg kh thresh l y) := by
  induction l with
  | nil => exact fun W => Sim.ret W
  | cons e l ih =>
    intro x y W
    exact Sim.bind (sim_commitInsert W) (fun _ _ => ih)

theorem sim_appendData {keySize : Nat} (l : Pool) : ∀ {w : RawWriter} {w' : Writer}, (∀ it ∈ l, it.key.length = keySize) → WRel w w' →
    Sim (fun x y => x.1 = y.1 ∧ WRel x.2 y.2) (rawAppendData cfg keySize l w) (appendData l w') := by
  induction l with
  | nil => exact fun _ hw => Sim.ret ⟨rfl, hw⟩
  | cons it l ih =>
    intro w w' hk hw
    unfold rawAppendData appendData
    have hkl := hk it (by simp)
    refine Sim.lift_right (fun _ ha => ?_) (fun x => assert_wrong)
    have e1 : valueSize it.data.length keySize = (dataRecord it.key it.data).length := by
      simp [dataRecord, valueSize, hkl]; omega
    rw [e1]
    refine Sim.bind (sim_prepare hw _) ?_
    rintro ⟨os, w₁⟩ _ ⟨w₀, h1, rfl⟩
    dsimp only at h1 ⊢
    refine Sim.lift_left () ha ?_
    obtain ⟨⟨os2, w2⟩, e2, h2⟩ := h1.write (bs' := putU48 it.data.length) (by simp [dataRecord])
    refine Sim.lift_left _ e2 ?_
    refine Sim.lift_left it.key (by rw [← hkl]; exact peek_all _) ?_
    obtain ⟨⟨os3, w3⟩, e3, h3⟩ := h2.write (bs' := it.key) (by simp [dataRecord])
    refine Sim.lift_left _ e3 ?_
    obtain ⟨⟨os4, w4⟩, e4, h4⟩ := h3.write (bs' := it.data) (by simp [dataRecord]; omega)
    refine Sim.lift_left _ e4 ?_
    have hr : WRel w4 { w₀ with data := w₀.data ++ dataRecord it.key it.data } := by
      have := h4.done (by simp [dataRecord])
      simpa [dataRecord] using this
    refine Sim.bind (ih (fun a ha => hk a (List.mem_cons_of_mem _ ha)) hr) ?_
    rintro ⟨l1, w5⟩ ⟨l2, w5'⟩ ⟨rfl, h5⟩
    exact Sim.ret ⟨by rw [hw.pos], h5⟩

theorem WRel.new {p : Path} {off n : Nat} : WRel (RawWriter.new cfg p off n) (Writer.new p off n) :=
  ⟨Nat.zero_le _, by simp [RawWriter.abs, RawWriter.new, Writer.new]⟩

theorem sim_commitPrepare {s : Store} (hk : ∀ it ∈ s.p0, it.key.length = s.kh.keySize) :
    Sim (WorkR s.kh.blockSize) (rawCommitPrepare cfg s) (commitPrepare cfg s) := by
  unfold rawCommitPrepare commitPrepare
  dsimp only
  refine Sim.bind (Sim.lift (Holds.ofAddr (p := cfg.fresh s.kh.blockSize) rfl)) ?_
  rintro vt t ⟨h1, h2, h3⟩
  refine Sim.bind (Sim.refl _) ?_
  rintro ks _ rfl
  cases s.ec with
  | some e => exact Sim.raise
  | none =>
    refine Sim.bind (Sim.refl _) ?_
    rintro ds _ rfl
    refine Sim.bind (Sim.refl _) ?_
    rintro _ _ -
    refine Sim.bind (Sim.refl _) ?_
    rintro _ _ -
    refine Sim.bind (Sim.refl _) ?_
    rintro size _ rfl
    refine Sim.bind (sim_appendData _ hk WRel.new) ?_
    rintro ⟨items, w⟩ ⟨_, w'⟩ ⟨rfl, hw⟩
    dsimp only at hw ⊢
    refine Sim.bind (sim_commitInserts items ⟨?_, h1, h2, hw, rfl, rfl, rfl⟩) ?_
    · refine ⟨rfl, rfl, .nil, .nil, by simp [buf1, buf2], ?_⟩
      intro a ha
      simp only [List.map_nil, List.append_nil, List.mem_cons, List.not_mem_nil, or_false] at ha
      rcases ha with ha | ha <;> subst ha <;> exact ⟨_, rfl, by simp⟩
    · intro x y W
      refine Sim.bind (sim_flush W.w) ?_
      rintro a b ⟨hab, _⟩
      exact Sim.ret ⟨W.lay, W.tmp, W.addr, hab, W.frac, W.buckets, W.modulus⟩

/-! ### After publication -/

/-- The blocks in the order of iteration. -/
structure Ordered (bs : Nat) (h : Ram) (L : Blocks) (l : List (Nat × Bytes)) : Prop where
  content : L.content h = l
  addrs : (L.map (·.2)).Nodup
  lens : ∀ e ∈ L, ∃ p, h[e.2]? = some p ∧ p.length = bs

theorem Lay.ordered {h : Ram} {c1 c0 : Blocks} {d1 d0 : Cache} (L : Lay bs h c1 c0 d1 d0) :
    Ordered bs h (c1.inOrder cfg h) (cfg.order d1) := by
  have hf : ∀ e ∈ c1, c1.find e.1 = some e.2 := fun e he => Blocks.find_of_mem L.keys1 he
  have hself : (c1.content h).filterMap (fun e => (c1.find e.1).map (fun a => (e.1, a))) = c1 := by
    unfold Blocks.content
    rw [List.filterMap_map]
    have : ∀ l : Blocks, (∀ e ∈ l, e ∈ c1) →
        l.filterMap ((fun e : Nat × Bytes => (c1.find e.1).map (fun a => (e.1, a))) ∘ fun e => (e.1, h.getD e.2 [])) = l := by
      intro l hl
      induction l with
      | nil => rfl
      | cons e l ih =>
        rw [List.filterMap_cons, ih (fun e he => hl e (List.mem_cons_of_mem _ he))]
        simp only [Function.comp, hf e (hl e (by simp)), Option.map_some]
    exact this c1 (fun _ he => he)
  have hperm : (c1.inOrder cfg h).Perm c1 := by
    have := (cfg.order_perm (c1.content h)).filterMap (fun e => (c1.find e.1).map (fun a => (e.1, a)))
    rw [hself] at this
    exact this
  refine ⟨?_, ?_, ?_⟩
  · rw [← L.e1]
    have key : ∀ l : List (Nat × Bytes), (∀ e ∈ l, e ∈ c1.content h) →
        Blocks.content (l.filterMap (fun e => (c1.find e.1).map (fun a => (e.1, a)))) h = l := by
      intro l hl
      induction l with
      | nil => rfl
      | cons e l ih =>
        obtain ⟨e', he', rfl⟩ := List.mem_map.mp (hl e (by simp))
        rw [List.filterMap_cons]
        simp only [hf e' he', Option.map_some]
        unfold Blocks.content at ih ⊢
        rw [List.map_cons, ih (fun e he => hl e (List.mem_cons_of_mem _ he))]
    exact key _ (fun e he => (cfg.order_perm _).mem_iff.mp he)
  · rw [(hperm.map _).nodup_iff]
    have hn := L.addrs
    rw [List.nodup_append] at hn
    obtain ⟨_, hn, _⟩ := hn
    rw [List.nodup_append] at hn
    exact hn.1
  · intro e he
    exact L.lt1 (n := e.1) (hperm.mem_iff.mp he)

theorem Ordered.tail {h : Ram} {e : Nat × Nat} {L : Blocks} {l : List (Nat × Bytes)} (O : Ordered bs h (e :: L) l) :
    ∃ p l', l = (e.1, p) :: l' ∧ h[e.2]? = some p ∧ p.length = bs ∧ Ordered bs h L l' ∧ ∀ x ∈ L, x.2 ≠ e.2 := by
  obtain ⟨p, hp, hl⟩ := O.lens e (by simp)
  have ha := O.addrs
  rw [List.map_cons, List.nodup_cons] at ha
  refine ⟨p, L.content h, ?_, hp, hl, ⟨rfl, ha.2, fun x hx => O.lens x (List.mem_cons_of_mem _ hx)⟩, ?_⟩
  · rw [← O.content]
    unfold Blocks.content
    simp [List.getD, hp]
  · intro x hx hxe
    exact ha.1 (List.mem_map.mpr ⟨x, hx, hxe⟩)

theorem sim_logRecords {h : Ram} (L : Blocks) : ∀ {l : List (Nat × Bytes)} {w : RawWriter} {w' : Writer}, Ordered bs h L l → WRel w w' →
    Sim WRel (rawLogRecords cfg bs h L w) (logRecords bs l w') := by
  induction L with
  | nil =>
    intro l w w' O hw
    have : l = [] := O.content.symm
    subst this
    exact Sim.ret hw
  | cons e L ih =>
    intro l w w' O hw
    obtain ⟨p, l', rfl, hp, hl, O', _⟩ := O.tail
    obtain ⟨n, a⟩ := e
    unfold rawLogRecords logRecords
    refine Sim.bind (Sim.lift (Holds.ofAddr hp)) ?_
    rintro v b ⟨hb, _, _⟩
    refine Sim.lift_right (fun body hbody => ?_) (fun x => compact_wrong)
    have hl := compact_len hbody
    have e1 : 8 + bucketSize v.size = (putU64 n ++ body).length := by simp [hl, hb.size]
    rw [e1]
    refine Sim.bind (sim_prepare hw _) ?_
    rintro ⟨os, w₁⟩ _ ⟨w₀, h1, rfl⟩
    dsimp only at h1 ⊢
    obtain ⟨⟨os2, w2⟩, e2, h2⟩ := h1.write (bs' := putU64 n) (by simp)
    refine Sim.lift_left _ e2 ?_
    refine Sim.lift_left body ((hb.ask _).trans hbody) ?_
    obtain ⟨⟨os3, w3⟩, e3, h3⟩ := h2.write (bs' := body) (by simp)
    refine Sim.lift_left _ e3 ?_
    have hr : WRel w3 { w₀ with data := w₀.data ++ (putU64 n ++ body) } := by
      have := h3.done (by simp)
      simpa using this
    exact ih O' hr

theorem Ordered.change {h h' : Ram} {L : Blocks} {l : List (Nat × Bytes)} {a : Nat} (O : Ordered bs h L l) (hs : Same [a] h h')
    (hne : ∀ x ∈ L, x.2 ≠ a) : Ordered bs h' L l := by
  have he : ∀ x ∈ L, h'[x.2]? = h[x.2]? := fun x hx => hs.out _ (by simpa using hne x hx)
  exact ⟨(content_congr he).trans O.content, O.addrs, fun x hx => by rw [he x hx]; exact O.lens x hx⟩

theorem sim_keyBlocks (L : Blocks) : ∀ {h : Ram} {l : List (Nat × Bytes)}, Ordered bs h L l →
    Sim Eq (rawKeyBlocks bs L h) (keyBlocks bs l) := by
  induction L with
  | nil =>
    intro h l O
    have : l = [] := O.content.symm
    subst this
    exact Sim.ret rfl
  | cons e L ih =>
    intro h l O
    obtain ⟨p, l', rfl, hp, hl, O', hne⟩ := O.tail
    obtain ⟨n, a⟩ := e
    unfold rawKeyBlocks keyBlocks
    refine Sim.bind (Sim.lift (Holds.ofAddr hp)) ?_
    rintro v b ⟨hb, hva, hbp⟩
    have hk : Keeps (fun b : Bkt => do
        let p ← b.padded
        return { b with p := p }) := by
      intro b b' hb'
      obtain ⟨q, hq, hb'⟩ := res_bind hb'
      cases hb'
      unfold Bkt.padded at hq
      split at hq
      · exact poke_len hq
      · cases hq
    have hc := hb.change hk
    unfold Bkt.writeFile
    cases hpad : b.padded with
    | error x =>
      have hw : x.wrong := by
        unfold Bkt.padded poke at hpad
        split at hpad
        · split at hpad
          · cases hpad
          · cases hpad; exact .inl rfl
        · cases hpad; exact .inl rfl
      intro σ w
      exact .inl hw
    | ok q =>
      have hc' : (do let p ← b.padded; return { b with p := p } : Res Bkt) = .ok { b with p := q } := by rw [hpad]; rfl
      rw [hc'] at hc
      obtain ⟨⟨v', h'⟩, e1, C⟩ := hc
      refine Sim.lift_left _ e1 ?_
      have hql : q.length = bs := by
        have := hk b _ hc'
        dsimp only at this
        rw [this, hbp, hl]
      have hq : v'.ask h' (fun b => peek b.p 0 bs) = .ok q := by
        rw [C.holds.ask]
        show peek q 0 bs = _
        rw [← hql]
        exact peek_all q
      dsimp only
      refine Sim.lift_left q hq ?_
      refine Sim.bind (m' := fWrite .key ((n + 1) * bs) q) (Sim.refl _) ?_
      rintro _ _ -
      exact ih (O'.change (by rw [← hva]; exact C.same) hne)

theorem sim_commitFinish {x : RawWork} {y : Work} (W : WorkR bs x y) :
    Sim Eq (rawCommitFinish cfg bs x) (commitFinish cfg bs y.c0 y.c1) := by
  unfold rawCommitFinish commitFinish
  refine Sim.bind (R := Eq) ?_ ?_
  · unfold rawCommitLog commitLog
    refine Sim.bind (Sim.refl _) ?_
    rintro size _ rfl
    refine Sim.bind (sim_logRecords _ W.lay.swap.ordered WRel.new) ?_
    intro w w' hw
    refine Sim.bind (sim_flush hw) ?_
    rintro _ _ -
    exact Sim.refl _
  rintro _ _ -
  refine Sim.bind (sim_keyBlocks _ W.lay.ordered) ?_
  rintro _ _ -
  exact Sim.refl _

theorem sim_commit {s : Store} (hk : ∀ it ∈ s.p1, it.key.length = s.kh.keySize) : Sim Eq (rawCommit cfg s) (commit cfg s) := by
  unfold rawCommit commit
  refine Sim.bind (Sim.refl _) ?_
  rintro _ _ -
  dsimp only
  refine Sim.bind (Sim.attempt (sim_commitPrepare (s := { s with p0 := s.p1, p1 := s.p0 }) hk)) ?_
  rintro (e | x) (e' | y) hxy
  · cases (show e = e' from hxy)
    exact Sim.ret rfl
  · exact hxy.elim
  · exact hxy.elim
  · have W : WorkR s.kh.blockSize x y := hxy
    dsimp only
    rw [W.lay.e1, W.frac, W.buckets, W.modulus]
    refine Sim.bind (Sim.attempt (sim_commitFinish W)) ?_
    rintro (e | u) (e' | u') he
    · cases (show e = e' from he)
      exact Sim.ret rfl
    · exact he.elim
    · exact he.elim
    · exact Sim.ret rfl

theorem sim_flushStore {s : Store} (hk : ∀ it ∈ s.p1, it.key.length = s.kh.keySize) : Sim Eq (rawFlush cfg s) (flush cfg s) := by
  unfold rawFlush flush
  cases s.p1.isEmpty with
  | true => exact Sim.ret rfl
  | false =>
    refine Sim.bind (sim_commit hk) ?_
    rintro x _ rfl
    exact Sim.refl _

theorem sim_close {s : Store} (hk : ∀ it ∈ s.p1, it.key.length = s.kh.keySize) : Sim Eq (rawClose cfg s) (close cfg s) := by
  unfold rawClose close
  refine Sim.bind (sim_flushStore hk) ?_
  rintro x _ rfl
  exact Sim.refl _

/-- What a simulation with equal results means. -/
theorem Sim.same {α : Type} {m m' : M α} (h : Sim Eq m m') (σ : Schedule) (w : World) :
    m σ w = m' σ w ∨ ∃ x w', m' σ w = (.error x, w') ∧ x.wrong := by
  have := h σ w
  rcases hm : m' σ w with ⟨x | b, w'⟩
  · rw [hm] at this
    rcases this with h | h
    · exact .inr ⟨x, w', rfl, h⟩
    · exact .inl h
  · rw [hm] at this
    obtain ⟨a, ha, rfl⟩ := this
    exact .inl ha

theorem Filled.writes {needed : Nat} {w₀ : Writer} (l : List Bytes) : ∀ {bs : Bytes} {os : OStream} {w : RawWriter},
    Filled needed w₀ bs os w → bs.length + l.flatten.length ≤ needed →
    ∃ x, os.writes w l = .ok x ∧ Filled needed w₀ (bs ++ l.flatten) x.1 x.2 := by
  induction l with
  | nil => intro bs os w h _; exact ⟨_, rfl, by simpa using h⟩
  | cons b l ih =>
    intro bs os w h hn
    simp only [List.flatten_cons, List.length_append] at hn
    obtain ⟨⟨os', w'⟩, e1, h1⟩ := h.write (bs' := b) (by omega)
    obtain ⟨x, e2, h2⟩ := ih h1 (by rw [List.length_append]; omega)
    refine ⟨x, ?_, ?_⟩
    · unfold OStream.writes
      rw [e1]
      exact e2
    · simpa using h2

end NuDB.Raw
