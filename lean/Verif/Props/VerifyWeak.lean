import Verif.Props.VerifySound
/-
Files that `verify` accepts although they are not valid (C34, C35).
-/
namespace NuDB

open Spec

/-- A hash function that is zero everywhere. -/
def flat : Cfg where
  H := fun _ _ => 0
  junk := fun _ => 0
  order := fun l => l
  order_perm := fun _ => .refl _

def flatConf : Conf := { uid := 3, appnum := 4, keySize := 1, salt := 5, blockSize := 104, loadFactor := 1 }

theorem flatConf_ok : flatConf.Ok := ⟨by decide, by decide, by decide, by decide, by decide, by decide, by decide, by decide, by decide⟩

/-- A key file with one bucket. -/
def flatKey (es : List Entry) : Bytes := putKeyHeader (flatConf.kh flat.H 1) ++ encBlock 104 es 0

/-- Files of a database. -/
def filesOf (D K : Bytes) : Fs := Fs.set (Fs.set (fun _ => none) .dat (some (.clean D))) .key (some (.clean K))

/-- Items for the only bucket. -/
structure FlatItems (es : List Entry) : Prop where
  len : es.length ≤ 5
  hash : ∀ e ∈ es, e.hash = 0
  fit : ∀ e ∈ es, e.Fit

section
variable {es : List Entry} {D : Bytes}

theorem flatKey_len (h : FlatItems es) : (flatKey es).length = 208 := by
  have := h.len
  have e : (putKeyHeader (flatConf.kh flat.H 1)).length = 104 := rfl
  unfold flatKey encBlock
  rw [List.length_append, List.length_append, e, encBkt_length]
  simp only [zeros, List.length_replicate]
  unfold bucketSize
  omega

theorem flat_block (h : FlatItems es) : ∃ t, bytesAt (flatKey es) 104 98 = encBkt es 0 ++ t := by
  have hl := h.len
  have e : (putKeyHeader (flatConf.kh flat.H 1)).length = 104 := rfl
  refine ⟨(zeros (104 - bucketSize es.length)).take (98 - (encBkt es 0).length), ?_⟩
  unfold bytesAt flatKey encBlock
  rw [← e, List.drop_left, List.take_append, List.take_of_length_le]
  rw [encBkt_length]; unfold bucketSize; omega

theorem flat_parts (h : FlatItems es) : countIn (bytesAt (flatKey es) 104 98) = es.length ∧ linkIn (bytesAt (flatKey es) 104 98) = 0 ∧
    itemsIn (bytesAt (flatKey es) 104 98) = es := by
  obtain ⟨t, ht⟩ := flat_block h
  have := h.len
  exact enc_block ht (by omega) (by decide) h.fit

theorem flat_heads (h : FlatItems es) (hD : D.take 92 = putDatHeader flatConf.dh) (hl : 92 ≤ D.length) :
    Heads flat D (flatKey es) (flatConf.kh flat.H 1) := by
  have e : slice D 0 92 = putDatHeader flatConf.dh := by rw [← hD]; simp [slice]
  have e' : getDatHeader (slice D 0 92) = flatConf.dh := by
    rw [e]
    exact (C17_dat flatConf.dh rfl (by show 2 < 2 ^ 16; decide) flatConf_ok.uid flatConf_ok.appnum flatConf_ok.key2).2
  have hk := flatKey_len h
  refine ⟨hl, by omega, ?_, by rw [e']; exact verifyDat_ok flatConf_ok, verifyKey_ok flatConf_ok (Nat.le_refl 1), by
    rw [e']; exact verifyDatKey_ok flatConf_ok (Nat.le_refl 1)⟩
  rw [get_kh (B := 1) flatConf_ok, hk]
  · rfl
  · have e : (putKeyHeader (flatConf.kh flat.H 1)).length = 104 := rfl
    unfold flatKey
    rw [List.take_append_of_le_length (by omega), List.take_of_length_le (by omega)]

theorem flat_table (h : FlatItems es) : GoodTable (flatConf.kh flat.H 1) D (flatKey es) (fun _ => [bytesAt (flatKey es) 104 98]) := by
  obtain ⟨h1, h2, h3⟩ := flat_parts h
  have hl := h.len
  refine ⟨by decide, by decide, rfl, by decide, by rw [flatKey_len h]; decide, ?_, ?_, fun n hn => by simp⟩
  · intro n hn
    have : n = 0 := by have : n < 1 := hn; omega
    subst this
    exact .last h2
  · intro n hn b hb
    simp only [List.mem_singleton] at hb
    subst hb
    refine good_of_enc (es := es) h1 h3 (by show es.length ≤ 5; exact hl) ?_ h.fit
    rw [Sorted, List.pairwise_iff_forall_sublist]
    intro a b hab
    have ha := h.hash a (hab.subset (by simp))
    have hb := h.hash b (hab.subset (by simp))
    omega

theorem flat_hash (k : Bytes) : hashKey flat.H (flatConf.kh flat.H 1).salt k = 0 := by
  show makeHash48 0 = 0
  decide

theorem flat_home (k : Bytes) : homeOf flat (flatConf.kh flat.H 1) k = 0 := by
  unfold homeOf
  rw [flat_hash]
  decide

theorem flat_indexed (h : FlatItems es) {l : List (Nat × Bytes)} (hl : ∀ x ∈ l, ∃ e ∈ es, e.offset = x.1) :
    Indexed flat (flatConf.kh flat.H 1) (fun _ => [bytesAt (flatKey es) 104 98]) l := by
  intro x hx
  refine ⟨by rw [flat_home]; decide, ?_⟩
  obtain ⟨e, he, ho⟩ := hl x hx
  refine ⟨e, ?_, ho, ?_⟩
  · simp only [List.flatMap_cons, List.flatMap_nil, List.append_nil]
    rw [(flat_parts h).2.2]
    exact he
  · rw [h.hash e he, flat_hash]

theorem flat_cur (D : Bytes) : (FileSt.clean D).cur = D := rfl

/-- When `verify_normal` accepts. -/
theorem flat_normal {ls : List Loose} (h : FlatItems es) (hD : D = putDatHeader flatConf.dh ++ looseLayout 5 ls)
    (hok : ∀ x ∈ ls, x.Ok 1 5) (hi : ∀ x ∈ locatedL 5 92 ls, ∃ e ∈ es, e.offset = x.1)
    (hs : ∀ e ∈ es, Looks flat.H 5 1 D e) {Q : Info → World → Prop} {w : World} {σ : Schedule} (hw : w.fs = filesOf D (flatKey es))
    (hQ : ∀ info w', Q info w') :
    tot σ (verifyNormal flat (flatConf.kh flat.H 1) D.length (flatKey es).length) Q w := by
  have hp : D.take 92 = putDatHeader flatConf.dh := by
    rw [hD, List.take_append_of_le_length (by simp), List.take_of_length_le (by simp)]
  refine tot_verifyNormal (df := .clean D) (kf := .clean (flatKey es)) (ls := ls) ?_ (flat_table h) ?_ ?_ ?_ (flat_indexed h hi)
    (by rw [hw]; rfl) (by rw [hw]; rfl) (fun info w' _ => hQ info w')
  · show 92 ≤ D.length
    rw [hD]; simp
  · intro n _ e he
    simp only [List.flatMap_cons, List.flatMap_nil, List.append_nil] at he
    rw [(flat_parts h).2.2] at he
    exact hs e he
  · show D = D.take 92 ++ looseLayout 5 ls
    rw [hp]; exact hD
  · exact hok

/-- When `verify_fast` accepts. -/
theorem flat_fast {rs : List Record} {n : Nat} (h : FlatItems es) (hD : D = putDatHeader flatConf.dh ++ layout rs)
    (hok : ∀ x ∈ rs, x.Ok 1) (hv : overflows rs = []) (hi : ∀ x ∈ located 92 rs, ∃ e ∈ es, e.offset = x.1)
    (hc : (values rs).length = es.length) {Q : Info → World → Prop} {w : World} {σ : Schedule} (hw : w.fs = filesOf D (flatKey es))
    (hn : fastChunk (flatConf.kh flat.H 1) n ≠ 0) (hQ : ∀ info w', Q info w') :
    tot σ (verifyFast flat (flatConf.kh flat.H 1) D.length (flatKey es).length n) Q w := by
  have hp : D.take 92 = putDatHeader flatConf.dh := by
    rw [hD, List.take_append_of_le_length (by simp), List.take_of_length_le (by simp)]
  refine tot_verifyFast (df := .clean D) (kf := .clean (flatKey es)) (rs := rs) ?_ (by decide) hn (flat_table h) ?_ hok ?_
    (flat_indexed h ?_) ?_ (by rw [hw]; rfl) (by rw [hw]; rfl) (fun info w' _ => hQ info w')
  · show 92 ≤ D.length
    rw [hD]; simp
  · show D = D.take 92 ++ layout rs
    rw [hp]; exact hD
  · intro b hb; rw [hv] at hb; cases hb
  · intro x hx
    obtain ⟨y, hy, rfl⟩ := List.mem_map.1 hx
    exact hi y hy
  · intro m hm
    have : m = 0 := by have : m < 1 := hm; omega
    subst this
    rw [homeCount, List.filter_eq_self.2 (by intro p _; rw [flat_home]; rfl), hc]
    simp [chainKeys, (flat_parts h).1]

/-- `verify` on such files. -/
theorem flat_verify (h : FlatItems es) (hD : D.take 92 = putDatHeader flatConf.dh) (hl : 92 ≤ D.length) {n : Nat}
    {Q : Info → World → Prop}
    (hn : ∀ w' : World, w'.fs = filesOf D (flatKey es) → chooseNormal (flatConf.kh flat.H 1) D.length (flatKey es).length n = true →
      tot calm (verifyNormal flat (flatConf.kh flat.H 1) D.length (flatKey es).length) Q w')
    (hs : ∀ w' : World, w'.fs = filesOf D (flatKey es) → chooseNormal (flatConf.kh flat.H 1) D.length (flatKey es).length n = false →
      tot calm (verifyFast flat (flatConf.kh flat.H 1) D.length (flatKey es).length n) Q w') :
    ∃ info w', verify flat n calm ⟨filesOf D (flatKey es), 0, []⟩ = (.ok info, w') ∧ Q info w' := by
  have key : tot calm (verify flat n) Q ⟨filesOf D (flatKey es), 0, []⟩ :=
    tot_verify (df := .clean D) (kf := .clean (flatKey es)) (flat_heads h hD hl) rfl rfl hn hs
  replace key : wp calm _ _ _ _ := key
  unfold wp at key
  cases hv : verify flat n calm ⟨filesOf D (flatKey es), 0, []⟩ with
  | mk r w' =>
    rw [hv] at key
    cases r with
    | ok info => exact ⟨info, w', rfl, key⟩
    | error x => obtain ⟨_, i, hi⟩ := key; exact absurd rfl hi

theorem flat_choice {n d : Nat} (hd : d < 1000) :
    chooseNormal (flatConf.kh flat.H 1) d 208 n = decide (n < 216) := by
  have e1 : fastChunk (flatConf.kh flat.H 1) n = if n < 216 then 0 else 1 := by
    show (if n ≥ 2 * 104 + 8 then min 1 ((n - 104) / (104 + 8)) else 0) = _
    by_cases hn : n < 216
    · rw [if_neg (by omega), if_pos hn]
    · rw [if_pos (by omega), if_neg hn]; omega
  simp only [chooseNormal, e1]
  by_cases hn : n < 216
  · simp [hn]
  · simp only [hn, if_false]
    show (decide (1 = 0) || decide ((d + 1 * 1 * 5 * 104 + 208) % 2 ^ 64 < ((if 1 > 0 then (1 + 1 - 1) / 1 else 0) * d + 208) % 2 ^ 64)) = _
    simp
    omega

end

/-- C34 fails for `verify_normal`: `verify` accepts files with an item whose offset is that of no record; it lies inside of a value. -/
theorem C34_phantom : ∃ (c : Cfg) (D K : Bytes) (rs : List Record) (e : Entry), DataFile (keySizeOf K) D rs ∧
    (∃ bs, ChainOf D K 0 bs ∧ e ∈ bs.flatMap itemsIn) ∧ (∀ y ∈ located 92 rs, y.1 ≠ e.offset) ∧
    ∃ info w', verify c 0 calm ⟨filesOf D K, 0, []⟩ = (.ok info, w') := by
  have h : FlatItems [⟨92, 8, 0⟩, ⟨99, 1, 0⟩] := ⟨by decide, by decide, by
    intro e he
    simp only [List.mem_cons, List.not_mem_nil, or_false] at he
    rcases he with rfl | rfl <;> exact ⟨by decide, by decide, by decide⟩⟩
  obtain ⟨D, hD⟩ : ∃ D, D = putDatHeader flatConf.dh ++ layout [.value [7] [0, 0, 0, 0, 0, 1, 9, 6]] := ⟨_, rfl⟩
  have hok : (Record.value [7] [0, 0, 0, 0, 0, 1, 9, 6]).Ok 1 := ⟨rfl, by decide, by decide⟩
  have hd : D.take 92 = putDatHeader flatConf.dh := by
    rw [hD, List.take_append_of_le_length (by simp), List.take_of_length_le (by simp)]
  have hh := flat_heads h hd (by rw [hD]; simp)
  have hks : keySizeOf (flatKey [⟨92, 8, 0⟩, ⟨99, 1, 0⟩]) = 1 := by rw [← hh.keySize]; rfl
  have hbs : blockSizeOf (flatKey [⟨92, 8, 0⟩, ⟨99, 1, 0⟩]) = 104 := by rw [← hh.blockSize]; rfl
  refine ⟨flat, D, flatKey [⟨92, 8, 0⟩, ⟨99, 1, 0⟩], [.value [7] [0, 0, 0, 0, 0, 1, 9, 6]], ⟨99, 1, 0⟩, ⟨_, hh.dataHeader, by rw [hd]; exact hD, ?_⟩, ?_, ?_, ?_⟩
  · intro r hr
    rw [hks]
    simp only [List.mem_singleton] at hr
    subst hr
    exact hok
  · refine ⟨[bytesAt (flatKey [⟨92, 8, 0⟩, ⟨99, 1, 0⟩]) 104 98], ?_, ?_⟩
    · unfold ChainOf bucketAt
      rw [hbs]
      exact .last (flat_parts h).2.1
    · simp only [List.flatMap_cons, List.flatMap_nil, List.append_nil]
      rw [(flat_parts h).2.2]
      simp
  · intro y hy
    simp only [located, List.mem_singleton] at hy
    subst hy
    decide
  · obtain ⟨info, w', hv, _⟩ := flat_verify (n := 0) (Q := fun _ _ => True) h hd (by rw [hD]; simp)
      (fun w hw _ => flat_normal (ls := [.value [7] [0, 0, 0, 0, 0, 1, 9, 6]]) h (by rw [hD]; rfl) (by
          intro x hx
          simp only [List.mem_singleton] at hx
          subst hx
          exact hok) (by
          intro x hx
          simp only [locatedL, List.mem_singleton] at hx
          subst hx
          exact ⟨⟨92, 8, 0⟩, by simp, rfl⟩) (by
          intro e he
          simp only [List.mem_cons, List.not_mem_nil, or_false] at he
          rw [hD]
          rcases he with rfl | rfl <;> exact ⟨by decide, by decide, by decide⟩) hw (fun _ _ => trivial))
      (fun w hw hc => by simp [chooseNormal, fastChunk, Conf.kh, flatConf] at hc)
    exact ⟨info, w', hv⟩

/-- C34 fails for `verify_normal`: `verify` accepts files with a value record that is listed nowhere. It follows an overflow record whose
count of items is less than its size suggests. -/
theorem C34_misses : ∃ (c : Cfg) (D K : Bytes) (rs : List Record) (o : Nat) (k v : Bytes), DataFile (keySizeOf K) D rs ∧
    (o, k, v) ∈ located 92 rs ∧ bucketsOf K = 1 ∧ (∃ bs, ChainOf D K 0 bs ∧ ∀ e ∈ bs.flatMap itemsIn, e.offset ≠ o) ∧
    ∃ info w', verify c 0 calm ⟨filesOf D K, 0, []⟩ = (.ok info, w') := by
  have h : FlatItems [⟨108, 91, 0⟩] := ⟨by decide, by decide, by
    intro e he
    simp only [List.mem_cons, List.not_mem_nil, or_false] at he
    rcases he with rfl; exact ⟨by decide, by decide, by decide⟩⟩
  have hl : layout [.overflow (zeros 8 ++ ([0, 0, 0, 0, 0, 91] ++ [1] ++ zeros 83)), .value [2] [3]] =
      looseLayout 5 [.spill (zeros 8), .value [1] (zeros 83 ++ [0, 0, 0, 0, 0, 1, 2, 3])] := by decide +kernel
  obtain ⟨D, hD⟩ : ∃ D, D = putDatHeader flatConf.dh ++ layout [.overflow (zeros 8 ++ ([0, 0, 0, 0, 0, 91] ++ [1] ++ zeros 83)), .value [2] [3]] := ⟨_, rfl⟩
  have hd : D.take 92 = putDatHeader flatConf.dh := by
    rw [hD, List.take_append_of_le_length (by simp), List.take_of_length_le (by simp)]
  have hh := flat_heads h hd (by rw [hD]; simp)
  have hks : keySizeOf (flatKey [⟨108, 91, 0⟩]) = 1 := by rw [← hh.keySize]; rfl
  have hbs : blockSizeOf (flatKey [⟨108, 91, 0⟩]) = 104 := by rw [← hh.blockSize]; rfl
  refine ⟨flat, D, flatKey [⟨108, 91, 0⟩], _, 198, [2], [3], ⟨_, hh.dataHeader, by rw [hd]; exact hD, ?_⟩, by decide, by rw [← hh.buckets]; rfl, ?_, ?_⟩
  · intro r hr
    rw [hks]
    simp only [List.mem_cons, List.not_mem_nil, or_false] at hr
    rcases hr with rfl | rfl
    · show _ < 2 ^ 16; decide
    · exact ⟨rfl, by decide, by decide⟩
  · refine ⟨[bytesAt (flatKey [⟨108, 91, 0⟩]) 104 98], ?_, ?_⟩
    · unfold ChainOf bucketAt
      rw [hbs]
      exact .last (flat_parts h).2.1
    · simp only [List.flatMap_cons, List.flatMap_nil, List.append_nil]
      rw [(flat_parts h).2.2]
      simp
  · obtain ⟨info, w', hv, _⟩ := flat_verify (n := 0) (Q := fun _ _ => True) h hd (by rw [hD]; simp)
      (fun w hw _ => flat_normal h (by rw [hD, hl]) (by
          intro x hx
          simp only [List.mem_cons, List.not_mem_nil, or_false] at hx
          rcases hx with rfl | rfl
          · exact ⟨by decide, by decide⟩
          · exact ⟨rfl, by decide, by decide⟩) (by
          intro x hx
          simp only [locatedL, List.mem_singleton] at hx
          subst hx
          exact ⟨⟨108, 91, 0⟩, by simp, by decide⟩) (by
          intro e he
          simp only [List.mem_cons, List.not_mem_nil, or_false] at he
          rw [hD]
          rcases he with rfl; exact ⟨by decide +kernel, by decide +kernel, by decide +kernel⟩) hw (fun _ _ => trivial))
      (fun w hw hc => by simp [chooseNormal, fastChunk, Conf.kh, flatConf] at hc)
    exact ⟨info, w', hv⟩

/-- C34 fails for `verify_fast`: `verify` accepts files with an item whose size is not that of the value. -/
theorem C34_sizes : ∃ (c : Cfg) (D K : Bytes) (rs : List Record) (e : Entry) (k v : Bytes), DataFile (keySizeOf K) D rs ∧
    (e.offset, k, v) ∈ located 92 rs ∧ bucketsOf K = 1 ∧ (∃ bs, ChainOf D K 0 bs ∧ bs.flatMap itemsIn = [e]) ∧ e.size ≠ v.length ∧
    ∃ info w', verify c 1000 calm ⟨filesOf D K, 0, []⟩ = (.ok info, w') := by
  have h : FlatItems [⟨92, 77, 0⟩] := ⟨by decide, by decide, by
    intro e he
    simp only [List.mem_cons, List.not_mem_nil, or_false] at he
    rcases he with rfl; exact ⟨by decide, by decide, by decide⟩⟩
  obtain ⟨D, hD⟩ : ∃ D, D = putDatHeader flatConf.dh ++ layout [.value [1] [5]] := ⟨_, rfl⟩
  have hok : ∀ x ∈ [Record.value [1] [5]], x.Ok 1 := by
    intro r hr
    simp only [List.mem_singleton] at hr
    subst hr
    exact ⟨rfl, by decide, by decide⟩
  have hd : D.take 92 = putDatHeader flatConf.dh := by
    rw [hD, List.take_append_of_le_length (by simp), List.take_of_length_le (by simp)]
  have hDl : D.length = 100 := by rw [hD]; simp [layout, Record.bytes, bigEndian]
  have hh := flat_heads h hd (by omega)
  have hks : keySizeOf (flatKey [⟨92, 77, 0⟩]) = 1 := by rw [← hh.keySize]; rfl
  have hbs : blockSizeOf (flatKey [⟨92, 77, 0⟩]) = 104 := by rw [← hh.blockSize]; rfl
  refine ⟨flat, D, flatKey [⟨92, 77, 0⟩], _, ⟨92, 77, 0⟩, [1], [5], ⟨_, hh.dataHeader, by rw [hd]; exact hD, by rw [hks]; exact hok⟩, by decide,
    by rw [← hh.buckets]; rfl, ?_, by decide, ?_⟩
  · refine ⟨[bytesAt (flatKey [⟨92, 77, 0⟩]) 104 98], ?_, ?_⟩
    · unfold ChainOf bucketAt
      rw [hbs]
      exact .last (flat_parts h).2.1
    · simp only [List.flatMap_cons, List.flatMap_nil, List.append_nil]
      rw [(flat_parts h).2.2]
  · obtain ⟨info, w', hv, _⟩ := flat_verify (n := 1000) (Q := fun _ _ => True) h hd (by omega)
      (fun w hw hc => by rw [flatKey_len h, flat_choice (by omega)] at hc; simp at hc)
      (fun w hw hc => flat_fast h hD hok rfl (by
          intro x hx
          simp only [located, List.mem_singleton] at hx
          subst hx
          exact ⟨⟨92, 77, 0⟩, by simp, rfl⟩) rfl hw (by decide) (fun _ _ => trivial))
    exact ⟨info, w', hv⟩

/-- C35 fails: `verify` accepts, with every buffer size, files with two value records for the same key. -/
theorem C35_undetected : ∃ (c : Cfg) (D K : Bytes) (rs : List Record), DataFile (keySizeOf K) D rs ∧
    ¬ ((values rs).map Prod.fst).Nodup ∧ ∀ n, ∃ info w', verify c n calm ⟨filesOf D K, 0, []⟩ = (.ok info, w') := by
  have h : FlatItems [⟨92, 1, 0⟩, ⟨100, 1, 0⟩] := ⟨by decide, by decide, by
    intro e he
    simp only [List.mem_cons, List.not_mem_nil, or_false] at he
    rcases he with rfl | rfl <;> exact ⟨by decide, by decide, by decide⟩⟩
  obtain ⟨D, hD⟩ : ∃ D, D = putDatHeader flatConf.dh ++ layout [.value [1] [5], .value [1] [6]] := ⟨_, rfl⟩
  have hok : ∀ x ∈ [Record.value [1] [5], .value [1] [6]], x.Ok 1 := by
    intro r hr
    simp only [List.mem_cons, List.not_mem_nil, or_false] at hr
    rcases hr with rfl | rfl <;> exact ⟨rfl, by decide, by decide⟩
  have hd : D.take 92 = putDatHeader flatConf.dh := by
    rw [hD, List.take_append_of_le_length (by simp), List.take_of_length_le (by simp)]
  have hDl : D.length = 108 := by rw [hD]; simp [layout, Record.bytes, bigEndian]
  have hh := flat_heads h hd (by omega)
  have hks : keySizeOf (flatKey [⟨92, 1, 0⟩, ⟨100, 1, 0⟩]) = 1 := by rw [← hh.keySize]; rfl
  refine ⟨flat, D, flatKey [⟨92, 1, 0⟩, ⟨100, 1, 0⟩], _, ⟨_, hh.dataHeader, by rw [hd]; exact hD, by rw [hks]; exact hok⟩, by decide, ?_⟩
  intro n
  obtain ⟨info, w', hv, _⟩ := flat_verify (n := n) (Q := fun _ _ => True) h hd (by omega)
    (fun w hw _ => flat_normal (ls := [.value [1] [5], .value [1] [6]]) h hD (by
      intro x hx
      simp only [List.mem_cons, List.not_mem_nil, or_false] at hx
      rcases hx with rfl | rfl <;> exact ⟨rfl, by decide, by decide⟩) (by
      intro x hx
      simp only [locatedL, List.mem_cons, List.not_mem_nil, or_false] at hx
      rcases hx with rfl | rfl
      · exact ⟨⟨92, 1, 0⟩, by simp, rfl⟩
      · exact ⟨⟨100, 1, 0⟩, by simp, by decide⟩) (by
      intro e he
      simp only [List.mem_cons, List.not_mem_nil, or_false] at he
      rw [hD]
      rcases he with rfl | rfl <;> exact ⟨by decide, by decide, by decide⟩) hw (fun _ _ => trivial))
    (fun w hw hc => by
      rw [flatKey_len h, flat_choice (by omega)] at hc
      have hn : ¬ n < 216 := by simpa using hc
      refine flat_fast h hD hok rfl (by
        intro x hx
        simp only [located, List.mem_cons, List.not_mem_nil, or_false] at hx
        rcases hx with rfl | rfl
        · exact ⟨⟨92, 1, 0⟩, by simp, rfl⟩
        · exact ⟨⟨100, 1, 0⟩, by simp, by decide⟩) rfl hw ?_ (fun _ _ => trivial)
      show (if n ≥ 2 * 104 + 8 then min 1 ((n - 104) / (104 + 8)) else 0) ≠ 0
      rw [if_pos (by omega)]
      omega)
  exact ⟨info, w', hv⟩

/-! ### The premises of C34 are satisfiable -/

/-- `verify_normal` and `verify_fast` on files with one value. -/
example : ∃ D K, bytesOf (filesOf D K) .dat = some D ∧ bytesOf (filesOf D K) .key = some K ∧ K.length < 2 ^ 64 ∧
    (∀ i, i < bucketsOf K → countIn (bucketAt K i) ≤ (blockSizeOf K - 8) / 18) ∧
    (∃ info w', verify flat 0 calm ⟨filesOf D K, 0, []⟩ = (.ok info, w') ∧ info.algorithm = 0) ∧
    ∃ info w', verify flat 1000 calm ⟨filesOf D K, 0, []⟩ = (.ok info, w') ∧ info.algorithm = 1 := by
  have h : FlatItems [⟨92, 1, 0⟩] := ⟨by decide, by decide, by
    intro e he
    simp only [List.mem_cons, List.not_mem_nil, or_false] at he
    rcases he with rfl; exact ⟨by decide, by decide, by decide⟩⟩
  obtain ⟨D, hD⟩ : ∃ D, D = putDatHeader flatConf.dh ++ layout [.value [1] [5]] := ⟨_, rfl⟩
  have hd : D.take 92 = putDatHeader flatConf.dh := by
    rw [hD, List.take_append_of_le_length (by simp), List.take_of_length_le (by simp)]
  have hDl : D.length = 100 := by rw [hD]; simp [layout, Record.bytes, bigEndian]
  have hh := flat_heads h hd (by omega)
  have hbs : blockSizeOf (flatKey [⟨92, 1, 0⟩]) = 104 := by rw [← hh.blockSize]; rfl
  have hB : bucketsOf (flatKey [⟨92, 1, 0⟩]) = 1 := by rw [← hh.buckets]; rfl
  refine ⟨D, flatKey [⟨92, 1, 0⟩], rfl, rfl, by rw [flatKey_len h]; decide, ?_, ?_, ?_⟩
  · intro i hi
    have hi : i = 0 := by omega
    subst hi
    unfold bucketAt
    rw [hbs]
    show countIn (bytesAt (flatKey [⟨92, 1, 0⟩]) 104 98) ≤ 5
    rw [(flat_parts h).1]
    decide
  · obtain ⟨info, w', hv, _⟩ := flat_verify (n := 0) (Q := fun _ _ => True) h hd (by omega)
      (fun w hw _ => flat_normal (ls := [.value [1] [5]]) h hD (by
        intro x hx
        simp only [List.mem_singleton] at hx
        subst hx
        exact ⟨rfl, by decide, by decide⟩) (by
        intro x hx
        simp only [locatedL, List.mem_singleton] at hx
        subst hx
        exact ⟨⟨92, 1, 0⟩, by simp, rfl⟩) (by
        intro e he
        simp only [List.mem_singleton] at he
        rw [hD]
        subst he
        exact ⟨by decide, by decide, by decide⟩) hw (fun _ _ => trivial))
      (fun w hw hc => by rw [flatKey_len h, flat_choice (by omega)] at hc; simp at hc)
    refine ⟨info, w', hv, wp_elim (Q := fun info _ => info.algorithm = 0) (pc_verify (df := .clean D) (kf := .clean (flatKey [⟨92, 1, 0⟩])) rfl rfl
      (fun _ _ _ _ _ => pc_verifyNormal_alg (fun _ _ h => h)) (fun kh w1 _ hh' hc => ?_)) hv⟩
    obtain rfl : kh = flatConf.kh flat.H 1 := by rw [hh'.head, hh.head]; rfl
    change chooseNormal (flatConf.kh flat.H 1) D.length (flatKey [⟨92, 1, 0⟩]).length 0 = false at hc
    rw [flatKey_len h, flat_choice (by omega)] at hc
    simp at hc
  · obtain ⟨info, w', hv, _⟩ := flat_verify (n := 1000) (Q := fun _ _ => True) h hd (by omega)
      (fun w hw hc => by rw [flatKey_len h, flat_choice (by omega)] at hc; simp at hc)
      (fun w hw hc => flat_fast (rs := [.value [1] [5]]) h hD (by
          intro x hx
          simp only [List.mem_singleton] at hx
          subst hx
          exact ⟨rfl, by decide, by decide⟩) rfl (by
          intro x hx
          simp only [located, List.mem_singleton] at hx
          subst hx
          exact ⟨⟨92, 1, 0⟩, by simp, rfl⟩) rfl hw (by decide) (fun _ _ => trivial))
    refine ⟨info, w', hv, wp_elim (Q := fun info _ => info.algorithm = 1) (pc_verify (df := .clean D) (kf := .clean (flatKey [⟨92, 1, 0⟩])) rfl rfl
      (fun kh w1 _ hh' hc => ?_) (fun _ _ _ _ _ => pc_verifyFast_alg (fun _ _ h => h))) hv⟩
    obtain rfl : kh = flatConf.kh flat.H 1 := by rw [hh'.head, hh.head]; rfl
    change chooseNormal (flatConf.kh flat.H 1) D.length (flatKey [⟨92, 1, 0⟩]).length 1000 = true at hc
    rw [flatKey_len h, flat_choice (by omega)] at hc
    simp at hc

/-- The premises of `C35_detected_partial`. -/
example : ∃ D K rs bs, bytesOf (filesOf D K) .dat = some D ∧ bytesOf (filesOf D K) .key = some K ∧ K.length < 2 ^ 64 ∧
    (∀ i, i < bucketsOf K → countIn (bucketAt K i) ≤ (blockSizeOf K - 8) / 18) ∧ DataFile (keySizeOf K) D rs ∧
    (∀ b ∈ overflows rs, b.length = 8 + 18 * countIn b) ∧ (92, [1], [5]) ∈ located 92 rs ∧ (100, [1], [6]) ∈ located 92 rs ∧
    Addressed (hash48 (flat.H (UInt64.ofNat (saltOf K)) [1])) (bucketsOf K) 0 ∧ ChainOf D K 0 bs ∧ ∀ e ∈ bs.flatMap itemsIn, e.offset ≠ 100 := by
  have h : FlatItems [⟨92, 1, 0⟩] := ⟨by decide, by decide, by
    intro e he
    simp only [List.mem_cons, List.not_mem_nil, or_false] at he
    rcases he with rfl; exact ⟨by decide, by decide, by decide⟩⟩
  obtain ⟨D, hD⟩ : ∃ D, D = putDatHeader flatConf.dh ++ layout [.value [1] [5], .value [1] [6]] := ⟨_, rfl⟩
  have hd : D.take 92 = putDatHeader flatConf.dh := by
    rw [hD, List.take_append_of_le_length (by simp), List.take_of_length_le (by simp)]
  have hh := flat_heads h hd (by rw [hD]; simp)
  have hks : keySizeOf (flatKey [⟨92, 1, 0⟩]) = 1 := by rw [← hh.keySize]; rfl
  have hbs : blockSizeOf (flatKey [⟨92, 1, 0⟩]) = 104 := by rw [← hh.blockSize]; rfl
  have hB : bucketsOf (flatKey [⟨92, 1, 0⟩]) = 1 := by rw [← hh.buckets]; rfl
  refine ⟨D, flatKey [⟨92, 1, 0⟩], [.value [1] [5], .value [1] [6]], [bytesAt (flatKey [⟨92, 1, 0⟩]) 104 98], rfl, rfl,
    by rw [flatKey_len h]; decide, ?_, ⟨_, hh.dataHeader, by rw [hd]; exact hD, ?_⟩, by simp [overflows], by simp [located],
    by simp [located, Record.bytes, bigEndian], ?_, ?_, ?_⟩
  · intro i hi
    have hi : i = 0 := by omega
    subst hi
    unfold bucketAt
    rw [hbs]
    show countIn (bytesAt (flatKey [⟨92, 1, 0⟩]) 104 98) ≤ 5
    rw [(flat_parts h).1]
    decide
  · rw [hks]
    intro r hr
    simp only [List.mem_cons, List.not_mem_nil, or_false] at hr
    rcases hr with rfl | rfl <;> exact ⟨rfl, by decide, by decide⟩
  · rw [hB]
    have := (hh.addressed (by rw [flatKey_len h]; decide) [1]).1
    rw [hB, flat_home] at this
    exact this
  · unfold ChainOf bucketAt
    rw [hbs]
    exact .last (flat_parts h).2.1
  · simp only [List.flatMap_cons, List.flatMap_nil, List.append_nil]
    rw [(flat_parts h).2.2]
    simp

end NuDB
