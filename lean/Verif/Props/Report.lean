import Verif.Props.Verify
/-
C79: what `verify` reports describes the files.
-/
namespace NuDB

open Spec

variable {c : Cfg} {a : CreateArgs} {lf : Nat} {short : Prop} {t : List Label} {fs : Fs}

/-! ### Overflow records in use -/

private theorem sum_le_of_subset {α : Type} [DecidableEq α] (f : α → Nat) : ∀ (p b : List α), p.Nodup → (∀ x ∈ p, x ∈ b) →
    (p.map f).sum ≤ (b.map f).sum
  | [], b, _, _ => Nat.zero_le _
  | x :: p, b, hn, hs => by
    have hx := hs x (by simp)
    obtain ⟨h1, h2⟩ := List.nodup_cons.1 hn
    have e := ((List.perm_cons_erase hx).map f).sum_nat
    have ih := sum_le_of_subset f p (b.erase x) h2 (fun y hy => (List.mem_erase_of_ne (by rintro rfl; exact h1 hy)).2 (hs y (by simp [hy])))
    rw [e]
    simp only [List.map_cons, List.sum_cons]
    omega

private theorem nodup_of_flatMap {α β : Type} (f : α → List β) : ∀ (l : List α), (l.flatMap f).Nodup → (∀ x ∈ l, f x ≠ []) → l.Nodup
  | [], _, _ => List.nodup_nil
  | x :: l, hn, hne => by
    rw [List.flatMap_cons, List.nodup_append] at hn
    obtain ⟨h1, h2, h3⟩ := hn
    refine List.nodup_cons.2 ⟨fun hx => ?_, nodup_of_flatMap f l h2 (fun y hy => hne y (by simp [hy]))⟩
    cases e : f x with
    | nil => exact hne x (by simp) e
    | cons y ys =>
      have hy : y ∈ f x := by rw [e]; simp
      exact h3 y hy y (List.mem_flatMap.2 ⟨x, hx, hy⟩) rfl

private theorem nodup_of_getElem {α β : Type} (f : α → List β) : ∀ (l : List α), (∀ n (h : n < l.length), (f l[n]).Nodup) →
    (∀ i j (hi : i < l.length) (hj : j < l.length), i ≠ j → ∀ x ∈ f l[i], x ∉ f l[j]) → (l.flatMap f).Nodup
  | [], _, _ => List.nodup_nil
  | x :: l, hn, hd => by
    rw [List.flatMap_cons, List.nodup_append]
    refine ⟨hn 0 (by simp), nodup_of_getElem f l (fun n h => hn (n + 1) (by simpa using h)) ?_, ?_⟩
    · intro i j hi hj hij
      exact hd (i + 1) (j + 1) (by simpa using hi) (by simpa using hj) (by omega)
    · intro y hy z hz e
      subst e
      obtain ⟨u, hu, hyu⟩ := List.mem_flatMap.1 hz
      obtain ⟨j, hj, rfl⟩ := List.getElem_of_mem hu
      exact hd 0 (j + 1) (by simp) (by simpa using hj) (by omega) y hy hyu

/-- The overflow buckets of a chain with their offsets. -/
private def linked (D : Bytes) (len : Nat) (bs : List Bytes) : List (Nat × Bytes) :=
  bs.dropLast.map (fun b => (linkIn b, bytesAt D (linkIn b) len))

private theorem linked_tail {D : Bytes} {len : Nat} {b : Bytes} {bs : List Bytes} (h : Chained D len b bs) :
    (linked D len bs).map Prod.snd = bs.tail ∧ (∀ b ∈ bs.dropLast, linkIn b ≠ 0) ∧ (∀ x ∈ bs.tail, x.length = len) ∧ ∃ r, bs = b :: r := by
  induction h with
  | last h => exact ⟨rfl, (fun _ h => by cases h), (fun _ h => by cases h), [], rfl⟩
  | @more b bs h hr _ ih =>
    obtain ⟨h1, h2, h3, r, rfl⟩ := ih
    refine ⟨?_, ?_, ?_, _, rfl⟩
    · simp only [linked, List.dropLast_cons_cons, List.map_cons, List.tail_cons]
      exact congrArg _ h1
    · intro x hx
      rw [List.dropLast_cons_cons] at hx
      rcases List.mem_cons.1 hx with rfl | hx
      · exact h
      · exact h2 x hx
    · intro x hx
      rcases List.mem_cons.1 hx with rfl | hx
      · exact bytesAt_len hr
      · exact h3 x hx

private theorem overflows_bodies (rs : List Record) : ∀ o, overflows rs = (bodies o rs).map Prod.snd := by
  induction rs with
  | nil => intro o; rfl
  | cons r rs ih =>
    intro o
    cases r with
    | value k v => simpa [overflows, bodies] using ih _
    | overflow b => simpa [overflows, bodies] using ih _

private theorem overflows_length (rs : List Record) : ((overflows rs).map (fun b => 8 + b.length)).sum ≤ (layout rs).length := by
  induction rs with
  | nil => exact Nat.le_refl _
  | cons r rs ih =>
    rw [layout_cons, List.length_append]
    cases r with
    | value k v =>
      have e : overflows (.value k v :: rs) = overflows rs := rfl
      rw [e]; omega
    | overflow b =>
      have e : overflows (.overflow b :: rs) = b :: overflows rs := rfl
      have e' : (Record.overflow b).bytes.length = 8 + b.length := by simp [Record.bytes, bigEndian]; omega
      rw [e, List.map_cons, List.sum_cons, e']; omega

/-- The overflow records in use are distinct records of the data file. -/
theorem used_le_total {H : Hasher} {D K : Bytes} {m : Map} {rs : List Record} {cs : List (List Bytes)} (h104 : 104 ≤ a.blockSize)
    (h : Conforms H a lf D K m rs cs) :
    (cs.map chainBytes).sum ≤ ((overflows rs).map (fun b => 8 + b.length)).sum ∧
    ((overflows rs).map (fun b => 8 + b.length)).sum ≤ D.length := by
  have hbs : blockSizeOf K = a.blockSize := h.head.blockSize
  have hchain : ∀ bs ∈ cs, ∃ b, Chained D (bucketBytes a.blockSize) b bs := by
    intro bs hb
    obtain ⟨n, hn, rfl⟩ := List.getElem_of_mem hb
    have := h.chain n hn
    unfold ChainOf at this
    rw [hbs] at this
    exact ⟨_, this⟩
  constructor
  · -- all items of all chains
    have hall : (cs.flatMap (fun bs => bs.flatMap itemsIn)).Nodup := by
      apply nodup_of_getElem
      · intro n hn; exact (h.items n hn).1
      · intro i j hi hj hij e he he'
        obtain ⟨_, _, _, _, _, a1⟩ := ((h.items i hi).2 e).1 he
        obtain ⟨_, _, _, _, _, a2⟩ := ((h.items j hj).2 e).1 he'
        exact hij (addressed_unique a1 a2)
    have htails : (cs.flatMap List.tail).Nodup := by
      apply nodup_of_flatMap itemsIn
      · rw [List.flatMap_assoc]
        refine List.Nodup.sublist ?_ hall
        clear hall hchain h
        induction cs with
        | nil => exact List.Sublist.refl _
        | cons bs cs ih =>
          rw [List.flatMap_cons, List.flatMap_cons]
          refine List.Sublist.append ?_ ih
          cases bs with
          | nil => exact List.Sublist.refl _
          | cons b bs => rw [List.tail_cons, List.flatMap_cons]; exact List.sublist_append_right _ _
      · intro b hb
        obtain ⟨bs, h1, h2⟩ := List.mem_flatMap.1 hb
        have := h.full bs h1 b h2
        intro e
        have hl : (itemsIn b).length = 0 := by rw [e]; rfl
        rw [itemsIn_length, this] at hl
        omega
    generalize hp : cs.flatMap (linked D (bucketBytes a.blockSize)) = P
    have hsnd : P.map Prod.snd = cs.flatMap List.tail := by
      rw [← hp, List.map_flatMap, List.flatMap_def, List.flatMap_def]
      congr 1
      apply List.map_congr_left
      intro bs hb
      obtain ⟨b, hc⟩ := hchain bs hb
      exact (linked_tail hc).1
    have hnd : P.Nodup := by
      refine List.Pairwise.of_map (S := (· ≠ ·)) Prod.snd (fun x y hxy e => hxy (by rw [e])) ?_
      rw [hsnd]; exact htails
    have hsub : ∀ x ∈ P, x ∈ bodies 92 rs := by
      intro x hx
      rw [← hp] at hx
      obtain ⟨bs, h1, h2⟩ := List.mem_flatMap.1 hx
      obtain ⟨b, h3, rfl⟩ := List.mem_map.1 h2
      obtain ⟨b', hc⟩ := hchain bs h1
      exact h.links bs h1 b (List.dropLast_subset _ h3) ((linked_tail hc).2.1 b h3)
    have hsum := sum_le_of_subset (fun p : Nat × Bytes => 8 + p.2.length) P _ hnd hsub
    rw [overflows_bodies rs 92, List.map_map]
    refine Nat.le_trans (Nat.le_of_eq ?_) hsum
    have e1 : P.map (fun p : Nat × Bytes => 8 + p.2.length) = (cs.flatMap List.tail).map (fun b => 8 + b.length) := by
      rw [← hsnd, List.map_map]; rfl
    rw [e1]
    have hfull := h.full
    clear e1 hsum hsub hnd hsnd hp htails hall h
    induction cs with
    | nil => rfl
    | cons bs cs ih =>
      rw [List.map_cons, List.sum_cons, List.flatMap_cons, List.map_append, List.sum_append_nat,
        ih (fun x hx => hchain x (by simp [hx])) (fun x hx => hfull x (by simp [hx]))]
      congr 1
      unfold chainBytes
      congr 1
      apply List.map_congr_left
      intro b hb
      obtain ⟨b', hc⟩ := hchain bs (by simp)
      rw [(linked_tail hc).2.2.1 b hb, hfull bs (by simp) b hb]
      unfold bucketBytes
      omega
  · obtain ⟨hd, h1, h2, _⟩ := h.data
    have := overflows_length rs
    rw [h2, List.length_append]
    omega

/-! ### The numbers -/

theorem Db.same_hash {c' : Cfg} {cf : Conf} {D K : Bytes} {recs : List Rec} {B : Nat} {view : View} (h : Db c cf D K recs B view)
    (hH : c'.H = c.H) : Db c' cf D K recs B view := by
  cases c
  cases c'
  dsimp only at hH
  subst hH
  exact ⟨h.conf, h.dat, h.dlen, h.b1, h.b2, ⟨h.key.len, h.key.head, h.key.blocks⟩, h.filed⟩

private theorem costing_same {c' : Cfg} {cf : Conf} {D K : Bytes} {B : Nat} {g : Nat → Bytes → Nat} (h : Costing c (cf.kh c.H B) D K g)
    (hH : c'.H = c.H) : Costing c' (cf.kh c'.H B) D K g := by
  cases c
  cases c'
  dsimp only at hH
  subst hH
  exact h

/-- C79, first part: the report of a successful `verify` of a closed database is determined by the files and the hash function:
the size of the buffer, the algorithm, the content of uninitialised memory and the behaviour of the file system do not matter. Missing:
the number of bytes in all overflow records, if one of the runs used `verify_fast`, see `C79_violated`. -/
theorem C79_partial {c1 c2 : Cfg} {n1 n2 : Nat} {σ1 σ2 : Schedule} {w1 w2 w1' w2' : World} {i1 i2 : Info} (hc : Creatable a lf)
    (hr : Reachable c a short t (none, fs)) (hl : fs .log = none) (h1 : c1.H = c.H) (h2 : c2.H = c.H)
    (hw1 : w1.fs = fs) (hw2 : w2.fs = fs) (hv1 : verify c1 n1 σ1 w1 = (.ok i1, w1')) (hv2 : verify c2 n2 σ2 w2 = (.ok i2, w2')) :
    (i1.valueCount = i2.valueCount ∧ i1.valueBytes = i2.valueBytes ∧ i1.keyCount = i2.keyCount ∧ i1.spillCount = i2.spillCount ∧
      i1.spillBytes = i2.spillBytes ∧ i1.spillCountTot = i2.spillCountTot ∧ i1.hist = i2.hist ∧ i1.fetches = i2.fetches) ∧
    (i1.algorithm = 0 → i2.algorithm = 0 → i1.spillBytesTot = i2.spillBytesTot) := by
  obtain ⟨D, K, recs, B, view, hS, _⟩ := settled hc hr hl
  obtain ⟨df, hd, sd⟩ := hS.closed.dat
  obtain ⟨kf, hk, sk⟩ := hS.closed.key
  obtain ⟨cs, h, hcs, T, rfl, hT, hP⟩ := conforms_of (m := kvOf (pairsOf recs)) hS.db (fun _ _ => rfl)
  have hkc := keys_counted hS.db hP
  obtain ⟨f, hf, hfs, _⟩ := fetches_counted hS.db hT hP
  have g1 := wp_elim (verify_counts (hS.db.same_hash h1) (hw1 ▸ hd) (hw1 ▸ hk) sd.cur sk.cur hcs (by simp) hkc (costing_same hf h1) hfs) hv1
  have g2 := wp_elim (verify_counts (hS.db.same_hash h2) (hw2 ▸ hd) (hw2 ▸ hk) sd.cur sk.cur hcs (by simp) hkc (costing_same hf h2) hfs) hv2
  refine ⟨⟨?_, ?_, ?_, ?_, ?_, ?_, ?_, ?_⟩, fun a1 a2 => ?_⟩
  · rw [g1.valueCount, g2.valueCount]
  · rw [g1.valueBytes, g2.valueBytes]
  · rw [g1.keyCount, g2.keyCount]
  · rw [g1.spillCount, g2.spillCount]
  · rw [g1.spillBytes, g2.spillBytes]
  · rw [g1.spillCountTot, g2.spillCountTot]
  · rw [g1.hist, g2.hist]
  · rw [g1.fetches, g2.fetches]
  · rw [g1.spillBytesTot a1, g2.spillBytesTot a2]

/-- C79, second part: the waste is a fraction of the data file. The overflow records in use take no more bytes than all overflow
records, and these fit in the file. Missing: reports of `verify_fast`, see `C79_violated`. -/
theorem C79_waste_partial {n : Nat} {σ : Schedule} {w w' : World} {info : Info} {D : Bytes} (hc : Creatable a lf)
    (hr : Reachable c a short t (none, fs)) (hl : fs .log = none) (hD : bytesOf fs .dat = some D) (hw : w.fs = fs)
    (hv : verify c n σ w = (.ok info, w')) (ha : info.algorithm = 0) :
    info.spillBytes ≤ info.spillBytesTot ∧ info.spillBytesTot ≤ D.length := by
  obtain ⟨D', K, recs, B, view, hS, _⟩ := settled hc hr hl
  obtain ⟨df, hd, sd⟩ := hS.closed.dat
  obtain ⟨kf, hk, sk⟩ := hS.closed.key
  have e : D' = D := by rw [bytesOf, hd] at hD; simpa [sd.cur] using hD
  subst e
  obtain ⟨cs, h, hcs, T, rfl, hT, hP⟩ := conforms_of (m := kvOf (pairsOf recs)) hS.db (fun _ _ => rfl)
  have hkc := keys_counted hS.db hP
  obtain ⟨f, hf, hfs, _⟩ := fetches_counted hS.db hT hP
  have g := wp_elim (verify_counts hS.db (hw ▸ hd) (hw ▸ hk) sd.cur sk.cur hcs (by simp) hkc hf hfs) hv
  rw [g.spillBytes, g.spillBytesTot ha]
  exact used_le_total (a := (a.conf lf).args) hS.db.conf.bs1 h

/-! ### Where the numbers are wrong -/

/-- The hash is the second byte of the key; new memory is filled with `j`. -/
def reportCfg (j : UInt8) : Cfg where
  H := fun _ k => UInt64.ofNat ((k.getD 1 0).toNat * 2 ^ 16)
  junk := fun _ => j
  order := fun l => l
  order_perm := List.Perm.refl

def reportArgs : CreateArgs :=
  { appnum := 7, uid := 11, salt := 13, keySize := 2, blockSize := 116, load := .rat 65535 65536 }

theorem report_creatable : Creatable reportArgs 65535 where
  uid := by decide
  appnum := by decide
  salt := by decide
  key := by decide
  block := by decide
  load := ⟨65535, 65536, rfl, by decide, by decide, by decide⟩
  lf := by decide

/-- One batch of inserts. The hashes let bucket 0 overflow, which a later split undoes, then bucket 1. -/
def reportOps (n : Nat) : List Op :=
  [.open] ++ (([0, 2, 0, 2, 0, 2, 0, 2, 0, 2, 0, 2, 1, 1, 1, 1, 1, 1, 1] : List UInt8).take n).zipIdx.map
    (fun p => .insert [UInt8.ofNat (p.2 + 1), p.1] [7]) ++ [.flush, .close]

theorem reportOps_sound (n : Nat) : ∀ op ∈ reportOps n, op.Sound reportArgs.keySize := by
  intro op h
  simp only [reportOps, List.mem_append, List.mem_singleton, List.mem_map, List.mem_cons, List.not_mem_nil, or_false] at h
  rcases h with (rfl | ⟨p, _, rfl⟩) | (rfl | rfl) <;> simp [Op.Sound, reportArgs]

/-- The bytes of all overflow records and of those in use, as reported. -/
private def wasteOf (j : UInt8) (n : Nat) (w : World) : Option (Nat × Nat × Nat) :=
  match verify (reportCfg j) n calm ⟨w.fs, 0, []⟩ with
  | (.ok i, _) => some (i.algorithm, i.spillBytesTot, i.spillBytes)
  | _ => none

private theorem wasteOf_some {j : UInt8} {n : Nat} {w : World} {r : Nat × Nat × Nat} (h : wasteOf j n w = some r) :
    ∃ i w', verify (reportCfg j) n calm ⟨w.fs, 0, []⟩ = (.ok i, w') ∧ i.algorithm = r.1 ∧ i.spillBytesTot = r.2.1 ∧ i.spillBytes = r.2.2 := by
  unfold wasteOf at h
  split at h
  · rename_i i w' e
    cases h
    exact ⟨i, w', e, rfl, rfl, rfl⟩
  · cases h

/-- C79 fails for `verify_fast`. It takes the size of the overflow records from a bucket object that, if no bucket among the first has an
overflow record, is still uninitialised: the bytes reported for the same data file, of 297 bytes with one overflow record of 124 bytes,
are 16 or 4642. -/
theorem C79_violated : ∃ t fs D i1 i2 w1 w2, Reachable (reportCfg 0) reportArgs False t (none, fs) ∧ fs .log = none ∧
    bytesOf fs .dat = some D ∧
    verify (reportCfg 0) 1000 calm ⟨fs, 0, []⟩ = (.ok i1, w1) ∧ verify (reportCfg 1) 1000 calm ⟨fs, 0, []⟩ = (.ok i2, w2) ∧
    D.length = 297 ∧ i1.spillBytesTot = 16 ∧ i2.spillBytesTot = 4642 := by
  have h : demoTestClosed (reportCfg 0) reportArgs (reportOps 9) (fun w => (w.fs .log).isNone &&
      ((bytesOf w.fs .dat).map List.length == some 297 && (wasteOf 0 1000 w == some (1, 16, 0) && wasteOf 1 1000 w == some (1, 4642, 0)))) = true := by
    decide +kernel
  obtain ⟨rets, w, h1, h2⟩ := demo_test_closed (reportOps_sound 9) h
  simp only [Bool.and_eq_true, Option.isNone_iff_eq_none, beq_iff_eq] at h2
  obtain ⟨g1, g2, g3, g4⟩ := h2
  obtain ⟨i1, w1, a1, _, a2, _⟩ := wasteOf_some g3
  obtain ⟨i2, w2, b1, _, b2, _⟩ := wasteOf_some g4
  cases e : bytesOf w.fs .dat with
  | none => rw [e] at g2; cases g2
  | some D =>
    rw [e] at g2
    exact ⟨_, w.fs, D, i1, i2, w1, w2, h1, g1, e, a1, b1, by simpa using g2, a2, b2⟩

/-- The waste can even be negative, and is reported as a huge number: 32 bytes in all overflow records, 124 in those in use. -/
theorem C79_negative : ∃ t fs i w', Reachable (reportCfg 0) reportArgs False t (none, fs) ∧ fs .log = none ∧
    verify (reportCfg 0) 240 calm ⟨fs, 0, []⟩ = (.ok i, w') ∧ i.spillBytesTot = 32 ∧ i.spillBytes = 124 := by
  have h : demoTestClosed (reportCfg 0) reportArgs (reportOps 19) (fun w => (w.fs .log).isNone && wasteOf 0 240 w == some (1, 32, 124)) = true := by
    decide +kernel
  obtain ⟨rets, w, h1, h2⟩ := demo_test_closed (reportOps_sound 19) h
  simp only [Bool.and_eq_true, Option.isNone_iff_eq_none, beq_iff_eq] at h2
  obtain ⟨i, w', a1, _, a2, a3⟩ := wasteOf_some h2.2
  exact ⟨_, w.fs, i, w', h1, h2.1, a1, a2, a3⟩

/-- The premises of `C79_partial` and `C79_waste_partial`: the first database above, verified by both algorithms. -/
example : ∃ t fs D i1 i2 w1 w2, Creatable reportArgs 65535 ∧ Reachable (reportCfg 0) reportArgs False t (none, fs) ∧ fs .log = none ∧
    bytesOf fs .dat = some D ∧ (reportCfg 1).H = (reportCfg 0).H ∧
    verify (reportCfg 0) 100 calm ⟨fs, 0, []⟩ = (.ok i1, w1) ∧ verify (reportCfg 1) 1000 calm ⟨fs, 0, []⟩ = (.ok i2, w2) ∧
    i1.algorithm = 0 ∧ i2.algorithm = 1 ∧ i1.spillBytesTot = 124 := by
  have h : demoTestClosed (reportCfg 0) reportArgs (reportOps 9) (fun w => (w.fs .log).isNone &&
      ((bytesOf w.fs .dat).isSome && (wasteOf 0 100 w == some (0, 124, 0) && wasteOf 1 1000 w == some (1, 4642, 0)))) = true := by
    decide +kernel
  obtain ⟨rets, w, h1, h2⟩ := demo_test_closed (reportOps_sound 9) h
  simp only [Bool.and_eq_true, Option.isNone_iff_eq_none, beq_iff_eq, Option.isSome_iff_exists] at h2
  obtain ⟨g1, ⟨D, g2⟩, g3, g4⟩ := h2
  obtain ⟨i1, w1, a1, a2, a3, _⟩ := wasteOf_some g3
  obtain ⟨i2, w2, b1, b2, b3, _⟩ := wasteOf_some g4
  exact ⟨_, w.fs, D, i1, i2, w1, w2, report_creatable, h1, g1, g2, rfl, a1, b1, a2, b2, a3⟩

end NuDB
