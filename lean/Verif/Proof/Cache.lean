import Verif.Proof.Split
/- The two bucket caches of `commit`. -/
namespace NuDB

/-- Indices present in a cache. -/
def Cache.idx (c : Cache) : List Nat := List.map (·.1) c

theorem Cache.find_none {c : Cache} {n : Nat} : c.find n = none ↔ n ∉ c.idx := by
  simp only [Cache.find, Option.map_eq_none_iff, List.find?_eq_none, Cache.idx, List.mem_map, beq_iff_eq]
  constructor
  · rintro h ⟨p, hp, rfl⟩; exact h p hp rfl
  · intro h p hp e; exact h ⟨p, hp, e⟩

theorem Cache.find_mem {c : Cache} {n : Nat} {p : Bytes} (h : c.find n = some p) : (n, p) ∈ c := by
  simp only [Cache.find, Option.map_eq_some_iff] at h
  obtain ⟨e, he, rfl⟩ := h
  have h1 := List.mem_of_find?_eq_some he
  have h2 := List.find?_some he
  simp only [beq_iff_eq] at h2
  subst h2
  exact h1

theorem Cache.find_some {c : Cache} {n : Nat} {p : Bytes} (hn : c.idx.Nodup) :
    c.find n = some p ↔ (n, p) ∈ c := by
  constructor
  · exact Cache.find_mem
  · intro h
    cases e : c.find n with
    | none => exact absurd (List.mem_map.mpr ⟨_, h, rfl⟩) (Cache.find_none.mp e)
    | some q =>
      have hq := Cache.find_mem e
      congr 1
      have : c.Pairwise (fun a b => a.1 ≠ b.1) := by
        simpa [Cache.idx, List.Nodup, List.pairwise_map] using hn
      by_cases hpq : q = p
      · exact hpq
      · exfalso
        have key : ∀ (l : List (Nat × Bytes)), l.Pairwise (fun a b => a.1 ≠ b.1) → (n, p) ∈ l →
            (n, q) ∈ l → False := by
          intro l
          induction l with
          | nil => intro _ h; cases h
          | cons a l ih =>
            intro hp h1 h2
            rw [List.pairwise_cons] at hp
            rcases List.mem_cons.mp h1 with rfl | h1'
            · rcases List.mem_cons.mp h2 with h2 | h2
              · simp only [Prod.mk.injEq, true_and] at h2; exact hpq h2
              · exact hp.1 _ h2 rfl
            · rcases List.mem_cons.mp h2 with h2 | h2
              · subst h2; exact hp.1 _ h1' rfl
              · exact ih hp.2 h1' h2
        exact key c this h hq

theorem Cache.idx_store (c : Cache) (n : Nat) (p : Bytes) : (c.store n p).idx = c.idx := by
  simp only [Cache.idx, Cache.store, List.map_map]
  apply List.map_congr_left
  intro e _
  simp only [Function.comp]
  split
  · rename_i h; simp only [beq_iff_eq] at h; exact h.symm
  · rfl

theorem Cache.mem_store {c : Cache} {n m : Nat} {p q : Bytes} (h : (m, q) ∈ c.store n p) :
    (m = n ∧ q = p) ∨ (m ≠ n ∧ (m, q) ∈ c) := by
  simp only [Cache.store, List.mem_map] at h
  obtain ⟨e, he, heq⟩ := h
  split at heq
  · rename_i hh
    simp only [Prod.mk.injEq] at heq
    left; exact ⟨heq.1.symm, heq.2.symm⟩
  · rename_i hh
    right
    subst heq
    simp only [beq_iff_eq] at hh
    exact ⟨hh, he⟩

theorem Cache.idx_append (c : Cache) (n : Nat) (p : Bytes) :
    Cache.idx (c ++ [(n, p)]) = c.idx ++ [n] := by simp [Cache.idx]

/-- `c0` holds original buckets, `c1` modified ones. -/
structure Caches (cf : Conf) (B0 B : Nat) (view0 view : View) (c0 c1 : Cache) : Prop where
  nodup0 : c0.idx.Nodup
  nodup1 : c1.idx.Nodup
  blob0 : ∀ n p, (n, p) ∈ c0 → n < B0 ∧ Blob cf.blockSize p (view0 n).1 (view0 n).2
  blob1 : ∀ n p, (n, p) ∈ c1 → n < B ∧ Blob cf.blockSize p (view n).1 (view n).2
  logged : ∀ n, n < B0 → n ∈ c1.idx → n ∈ c0.idx
  fresh : ∀ n, B0 ≤ n → n < B → n ∈ c1.idx
  old : ∀ n, n < B0 → n ∉ c1.idx → view n = view0 n
  le : B0 ≤ B
  sup : ∀ n, n ∈ c0.idx → n ∈ c1.idx

theorem caches_nil (cf : Conf) (B : Nat) (view : View) : Caches cf B B view view [] [] where
  nodup0 := List.Pairwise.nil
  nodup1 := List.Pairwise.nil
  blob0 := by intro n p h; cases h
  blob1 := by intro n p h; cases h
  logged := by intro n _ h; cases h
  fresh := by intro n h1 h2; omega
  old := by intro n _ _; rfl
  le := Nat.le_refl _
  sup := by intro n h; cases h

/-- Replace the content of one bucket. -/
def View.set (v : View) (n : Nat) (x : List Entry × Nat) : View := fun k => if k = n then x else v k

theorem View.set_same (v : View) (n : Nat) (x : List Entry × Nat) : v.set n x n = x := by
  simp [View.set]

theorem View.set_other {v : View} {n k : Nat} (x : List Entry × Nat) (h : k ≠ n) : v.set n x k = v k := by
  simp [View.set, h]

theorem Rep.toBlob {b : Bkt} {es : List Entry} {s : Nat} {bs : Nat} (h : Rep b es s) (hb : b.bs = bs) :
    Blob bs b.p es s := ⟨by rw [h.len, hb], h.blob⟩

/-- Storing back a changed bucket. -/
theorem Caches.store {cf : Conf} {B0 B : Nat} {view0 view : View} {c0 c1 : Cache}
    (h : Caches cf B0 B view0 view c0 c1) {n : Nat} (hn : n ∈ c1.idx) {p : Bytes}
    {x : List Entry × Nat} (hp : Blob cf.blockSize p x.1 x.2) :
    Caches cf B0 B view0 (view.set n x) c0 (c1.store n p) where
  nodup0 := h.nodup0
  nodup1 := by rw [Cache.idx_store]; exact h.nodup1
  blob0 := h.blob0
  blob1 := by
    intro m q hm
    rcases Cache.mem_store hm with ⟨rfl, rfl⟩ | ⟨hne, hm⟩
    · obtain ⟨e, he, rfl⟩ := List.mem_map.mp hn
      rw [View.set_same]
      exact ⟨(h.blob1 e.1 e.2 he).1, hp⟩
    · rw [View.set_other _ hne]; exact h.blob1 m q hm
  logged := by intro m h1 h2; rw [Cache.idx_store] at h2; exact h.logged m h1 h2
  fresh := by intro m h1 h2; rw [Cache.idx_store]; exact h.fresh m h1 h2
  old := by
    intro m h1 h2
    rw [Cache.idx_store] at h2
    rw [View.set_other]
    · exact h.old m h1 h2
    · rintro rfl; exact h2 hn
  le := h.le
  sup := by intro m hm; rw [Cache.idx_store]; exact h.sup m hm

theorem Caches.view_congr {cf : Conf} {B0 B : Nat} {view0 view : View} {c0 c1 : Cache}
    (h : Caches cf B0 B view0 view c0 c1) {view' : View} (hv : ∀ n, n < B → view' n = view n) :
    Caches cf B0 B view0 view' c0 c1 :=
  { h with
    blob1 := fun n p hm => by
      have := h.blob1 n p hm
      rw [hv n this.1]; exact this
    old := fun n h1 h2 => by rw [hv n (Nat.lt_of_lt_of_le h1 h.le)]; exact h.old n h1 h2 }

/-- A new last bucket. -/
theorem Caches.grow {cf : Conf} {B0 B : Nat} {view0 view : View} {c0 c1 : Cache}
    (h : Caches cf B0 B view0 view c0 c1) {p : Bytes} {x : List Entry × Nat}
    (hp : Blob cf.blockSize p x.1 x.2) (hB : B ∉ c1.idx) :
    Caches cf B0 (B + 1) view0 (view.set B x) c0 (c1 ++ [(B, p)]) where
  nodup0 := h.nodup0
  nodup1 := by
    rw [Cache.idx_append]
    exact List.nodup_append.mpr ⟨h.nodup1, by simp, by
      intro a ha b hb; simp only [List.mem_singleton] at hb; subst hb; rintro rfl; exact hB ha⟩
  blob0 := h.blob0
  blob1 := by
    intro m q hm
    rcases List.mem_append.mp hm with hm | hm
    · have := h.blob1 m q hm
      rw [View.set_other _ (by omega)]
      exact ⟨by omega, this.2⟩
    · simp only [List.mem_singleton, Prod.mk.injEq] at hm
      obtain ⟨rfl, rfl⟩ := hm
      rw [View.set_same]
      exact ⟨by omega, hp⟩
  logged := by
    intro m h1 h2
    rw [Cache.idx_append] at h2
    rcases List.mem_append.mp h2 with h2 | h2
    · exact h.logged m h1 h2
    · simp only [List.mem_singleton] at h2
      have := h.le; omega
  fresh := by
    intro m h1 h2
    rw [Cache.idx_append]
    by_cases e : m = B
    · simp [e]
    · exact List.mem_append_left _ (h.fresh m h1 (by omega))
  old := by
    intro m h1 h2
    rw [Cache.idx_append] at h2
    have := h.le
    rw [View.set_other _ (by omega)]
    exact h.old m h1 (fun hh => h2 (List.mem_append_left _ hh))
  le := by have := h.le; omega
  sup := by intro m hm; rw [Cache.idx_append]; exact List.mem_append_left _ (h.sup m hm)

theorem Caches.lt {cf : Conf} {B0 B : Nat} {view0 view : View} {c0 c1 : Cache}
    (h : Caches cf B0 B view0 view c0 c1) {n : Nat} (hn : n ∈ c1.idx) : n < B := by
  obtain ⟨e, he, rfl⟩ := List.mem_map.mp hn
  exact (h.blob1 e.1 e.2 he).1

/-- Copy an original bucket to both caches. -/
theorem Caches.add {cf : Conf} {B0 B : Nat} {view0 view : View} {c0 c1 : Cache}
    (h : Caches cf B0 B view0 view c0 c1) {n : Nat} (hn : n < B0) (h1 : n ∉ c1.idx) (h0 : n ∉ c0.idx)
    {p0 p1 : Bytes} (hp0 : Blob cf.blockSize p0 (view0 n).1 (view0 n).2)
    (hp1 : Blob cf.blockSize p1 (view0 n).1 (view0 n).2) :
    Caches cf B0 B view0 view (c0 ++ [(n, p0)]) (c1 ++ [(n, p1)]) where
  nodup0 := by
    rw [Cache.idx_append]
    exact List.nodup_append.mpr ⟨h.nodup0, by simp, by
      intro a ha b hb; simp only [List.mem_singleton] at hb; subst hb; rintro rfl; exact h0 ha⟩
  nodup1 := by
    rw [Cache.idx_append]
    exact List.nodup_append.mpr ⟨h.nodup1, by simp, by
      intro a ha b hb; simp only [List.mem_singleton] at hb; subst hb; rintro rfl; exact h1 ha⟩
  blob0 := by
    intro m q hm
    rcases List.mem_append.mp hm with hm | hm
    · exact h.blob0 m q hm
    · simp only [List.mem_singleton, Prod.mk.injEq] at hm
      obtain ⟨rfl, rfl⟩ := hm
      exact ⟨hn, hp0⟩
  blob1 := by
    intro m q hm
    rcases List.mem_append.mp hm with hm | hm
    · exact h.blob1 m q hm
    · simp only [List.mem_singleton, Prod.mk.injEq] at hm
      obtain ⟨rfl, rfl⟩ := hm
      rw [h.old m hn h1]
      exact ⟨by have := h.le; omega, hp1⟩
  logged := by
    intro m h3 h4
    rw [Cache.idx_append] at h4 ⊢
    rcases List.mem_append.mp h4 with h4 | h4
    · exact List.mem_append_left _ (h.logged m h3 h4)
    · exact List.mem_append_right _ h4
  fresh := by intro m h3 h4; rw [Cache.idx_append]; exact List.mem_append_left _ (h.fresh m h3 h4)
  old := by
    intro m h3 h4
    rw [Cache.idx_append] at h4
    exact h.old m h3 (fun hh => h4 (List.mem_append_left _ hh))
  le := h.le
  sup := by
    intro m hm
    rw [Cache.idx_append] at hm ⊢
    rcases List.mem_append.mp hm with hm | hm
    · exact List.mem_append_left _ (h.sup m hm)
    · exact List.mem_append_right _ hm

/-- `cache_t::insert` copies the bucket. -/
theorem cache_insert_ok {cfg : Cfg} {c : Cache} {n : Nat} {b : Bkt} {es : List Entry} {s : Nat}
    (hr : Rep b es s) (hn : n ∉ c.idx) :
    ∃ p b', c.insert cfg n b = .ok (c ++ [(n, p)], b') ∧ Rep b' es s ∧ b'.bs = b.bs ∧ b'.p = p := by
  have hroom := hr.room
  unfold Cache.insert
  rw [hr.compact]
  simp only [bind, Except.bind]
  rw [poke_ok (by simp; omega)]
  simp only
  rw [if_neg (by rw [Cache.find_none.mpr hn]; simp)]
  have e : put (cfg.fresh b.bs) 0 (encBkt es s) = encBkt es s ++ (cfg.fresh b.bs).drop (bucketSize es.length) := by
    simp [put]
  have hl : (encBkt es s ++ (cfg.fresh b.bs).drop (bucketSize es.length)).length = b.bs := by
    simp; omega
  obtain ⟨b', h1, h2, h3, h4⟩ := ofMem_enc hl hr.bs hr.fit hr.sfit
  rw [e, h1]
  exact ⟨_, b', rfl, h2, h3, h4⟩

section
variable {c : Cfg} {cf : Conf} {σ : Schedule} {w : World} {X : Exc → World → Prop}

/-- `load`. -/
theorem wp_load {B0 B n : Nat} {view0 view : View} {c0 c1 : Cache} {f : FileSt} {D : Bytes}
    {T0 : List Entry} {m0 : Nat} (hcf : cf.Ok)
    (hf : w.fs .key = some f) (hK : KeyFile c cf f.cur B0 view0)
    (hF0 : Filed D cf.cap B0 m0 view0 T0)
    (hC : Caches cf B0 B view0 view c0 c1) (hn : n < B)
    (hv : ∀ e ∈ (view n).1, e.Fit) (hvs : (view n).2 < 2 ^ 48)
    {Q : Bkt × Cache × Cache → World → Prop}
    (hQ : ∀ b c1' c0' w', Rep b (view n).1 (view n).2 → b.bs = cf.blockSize →
      Caches cf B0 B view0 view c0' c1' → n ∈ c1'.idx → (∀ k, k ∈ c1.idx → k ∈ c1'.idx) →
      (∀ k, k ∈ c1'.idx → k ∈ c1.idx ∨ k = n) → c0'.length ≤ c0.length + 1 →
      Quiet w w' → Q (b, c1', c0') w')
    (hX : ∀ x, IsFault x → Faulty σ → X x (w.tick w.fs)) :
    wp σ (load c cf.blockSize n c1 c0) Q X w := by
  unfold load
  cases h1 : c1.find n with
  | some p =>
    have hm := Cache.find_mem h1
    obtain ⟨b, e1, e2, e3, e4⟩ := (hC.blob1 n p hm).2.load hcf.bs2 hv hvs
    apply wp_bind
    apply wp_lift_ok e1
    apply wp_ret
    exact hQ b c1 c0 w e2 e3 hC (List.mem_map.mpr ⟨_, hm, rfl⟩) (fun _ h => h) (fun _ h => .inl h) (by omega) (Quiet.refl w)
  | none =>
    have hn1 := Cache.find_none.mp h1
    have hnB0 : n < B0 := by
      by_cases h : n < B0
      · exact h
      · exact absurd (hC.fresh n (by omega) hn) hn1
    have hn0 : n ∉ c0.idx := fun h => hn1 (hC.sup n h)
    have h0 := Cache.find_none.mpr hn0
    simp only [h0]
    have hok := hF0 n hnB0
    have h104 := hcf.bs1
    obtain ⟨tmp, e1, e2, e3⟩ := ofMem_any (bs := cf.blockSize) (p := c.fresh cf.blockSize)
      (by simp; omega)
    apply wp_bind
    apply wp_lift_ok e1
    apply wp_bind
    have hcap : bucketCapacity tmp.bs = cf.cap := by rw [e2]; rfl
    have hb := hK.blocks n hnB0
    obtain ⟨t, ht⟩ := slice_block hb hcf.cap_le hok.len
    apply wp_readFile (es := (view0 n).1) (s := (view0 n).2) (t := t) hf
    · rw [hcap, hK.len]
      have h1 := hcf.cap_le
      have h2 : (n + 1 + 1) * cf.blockSize ≤ (B0 + 1) * cf.blockSize :=
        Nat.mul_le_mul_right _ (by omega)
      rw [Nat.add_mul (n + 1) 1, Nat.one_mul] at h2
      omega
    · rw [hcap]; exact ht
    · rw [e3, e2]; simp
    · rw [hcap, e2]; exact hcf.cap_le
    · rw [e2]; exact hcf.bs2
    · exact hok.fit
    · exact hok.lt48
    · rw [hcap]; exact hok.len
    · intro tmp' r1 r2
      obtain ⟨p0, b0, g1, g2, g3, g4⟩ := cache_insert_ok (cfg := c) (c := c0) r1 hn0
      obtain ⟨p1, b1, k1, k2, k3, k4⟩ := cache_insert_ok (cfg := c) (c := c1) r1 hn1
      apply wp_bind
      apply wp_lift_ok g1
      simp only
      apply wp_bind
      apply wp_lift_ok k1
      simp only
      apply wp_ret
      have hbs : b1.bs = cf.blockSize := by rw [k3, r2, e2]
      refine hQ b1 _ _ _ (by rw [hC.old n hnB0 hn1]; exact k2) hbs
        (hC.add hnB0 hn1 hn0 ?_ ?_) ?_ ?_ ?_ (by simp) (Quiet.tick w)
      · rw [← g4]; exact g2.toBlob (by rw [g3, r2, e2])
      · rw [← k4]; exact k2.toBlob hbs
      · rw [Cache.idx_append]; simp
      · intro k hk; rw [Cache.idx_append]; exact List.mem_append_left _ hk
      · intro k hk; rw [Cache.idx_append] at hk; simpa using hk
    · exact hX

end

end NuDB
