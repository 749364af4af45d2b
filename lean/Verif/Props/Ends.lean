import Verif.Proof.Ends6
import Verif.Props.Damage
/-
C64: loops end, except when overflow records refer to each other in circles.
-/
namespace NuDB

open Spec

section
variable {σ : Schedule} {c : Cfg} {w : World}

/-- **C64**, functions that read or write files from front to back. They end with any files, any arguments, any faults
of the file system and any user supplied function. -/
theorem C64_create {asserts : Bool} {a : CreateArgs} : (create c asserts a σ w).1 ≠ .error .hang := no_hang ends_create w

theorem C64_recover : (recover c σ w).1 ≠ .error .hang := no_hang ends_recover w

theorem C64_open : (openStore c σ w).1 ≠ .error .hang := no_hang ends_open w

theorem C64_visit {cb : List Event → Option Err} : (visit c cb σ w).1 ≠ .error .hang := no_hang ends_visit w

theorem C64_rekey {a : RekeyArgs} : (rekey c a σ w).1 ≠ .error .hang := no_hang ends_rekey w

theorem block_of_cap {bs : Nat} (h : 1 ≤ bucketCapacity bs) : 104 ≤ bs := by
  have e : keyHeaderSize = 104 := rfl
  unfold bucketCapacity at h
  split at h
  · omega
  · rename_i h1; simp only [e, Bool.or_eq_true, decide_eq_true_eq] at h1; omega

/-- **C64**, lookups. If a `fetch` or an `insert` does not end then overflow records of the data file refer to each other in
circles. The files may be damaged in any way. -/
theorem C64_lookup {s : Store} {op : Op} {D : Bytes} (h : Abused c (some s) w.fs) (hD : bytesOf w.fs .dat = some D)
    (hop : (∃ k, op = .fetch k) ∨ ∃ k v, op = .insert k v) (hh : (perform c op (some s) σ w).1 = .error .hang) :
    ∃ o, Endless D ((s.kh.blockSize - 8) / 18) o := by
  have k := Abused.kept h s rfl
  have h104 : 104 ≤ s.kh.blockSize := block_of_cap k.cap
  obtain ⟨f, hf, rfl⟩ := bytesOf_some hD
  have back : ∀ {α β : Type} {m : M α} {k : Except Err α → M β}, (∀ x w, (k x σ w).1 ≠ .error .hang) →
      ((M.attempt m >>= k) σ w).1 = .error .hang → (m σ w).1 = .error .hang := by
    intro α β m k hk hm
    change (M.bind (M.attempt m) k σ w).1 = _ at hm
    unfold M.bind M.attempt at hm
    rcases hr : m σ w with ⟨x | x, w'⟩
    · rw [hr] at hm
      cases x with
      | err e => exact absurd hm (hk _ _)
      | _ => first | rfl | cases hm
    · rw [hr] at hm
      exact absurd hm (hk _ _)
  rcases hop with ⟨key, rfl⟩ | ⟨key, v, rfl⟩
  · unfold perform at hh
    refine (ends_fetch (c := c) (key := key) hf k.files.key h104).result rfl (back ?_ hh)
    intro x w
    cases x <;> exact fun h => by cases h
  · unfold perform at hh
    refine (ends_insert (c := c) (key := key) (data := v) hf k.files.key h104).result rfl (back ?_ hh)
    intro x w
    cases x <;> exact fun h => by cases h

/-- **C64**, commits. A `flush` or `close` ends if the overflow records of the data file, as it is then, do not refer to each
other in circles. -/
theorem C64_flush {s : Store} {op : Op} (h : Abused c (some s) w.fs) (hop : op = .flush ∨ op = .close)
    (hD : ∀ D o, bytesOf (perform c op (some s) σ w).2.fs .dat = some D → ¬ Endless D ((s.kh.blockSize - 8) / 18) o) :
    (perform c op (some s) σ w).1 ≠ .error .hang := by
  have k := Abused.kept h s rfl
  have h104 : 104 ≤ s.kh.blockSize := block_of_cap k.cap
  obtain ⟨f, hf⟩ := k.files.dat
  have main : GEnds σ f.cur (LoopsIn s.kh.blockSize) (perform c op (some s)) (fun _ => True) := by
    rcases hop with rfl | rfl
    · unfold perform
      refine GEnds.bind (gends_flush h104) fun s' _ => ?_
      split <;> exact GEnds.ret trivial
    · unfold perform
      refine GEnds.bind (gends_close h104) fun s' _ => ?_
      split <;> exact GEnds.ret trivial
  intro hh
  have h1 := main w ⟨f, hf, List.prefix_refl _⟩
  unfold wp at h1
  rcases hr : perform c op (some s) σ w with ⟨x | x, w'⟩
  · rw [hr] at h1 hh hD
    cases hh
    obtain ⟨g, hg, o, ho⟩ := h1.2 rfl
    exact hD g.cur o (by unfold bytesOf; rw [hg]; rfl) ho
  · rw [hr] at hh; cases hh

/-- **C64**, `verify`. If it does not end then overflow records of the data file refer to each other in circles. -/
theorem C64_verify {n : Nat} {D K : Bytes} (hD : bytesOf w.fs .dat = some D) (hK : bytesOf w.fs .key = some K)
    (hh : (verify c n σ w).1 = .error .hang) : ∃ o, Endless D (roomOf K) o := by
  obtain ⟨f, hf, rfl⟩ := bytesOf_some hD
  obtain ⟨g, hg, rfl⟩ := bytesOf_some hK
  exact (ends_verify (c := c) (n := n) hf hg).result rfl hh

/-- **C64**, the model gives lookups enough rounds: one that ends, with whatever outcome, has the same outcome if it is allowed
more rounds. -/
theorem C64_more_rounds {kh : KeyHeader} {hash : Nat} {key : Bytes} {b : Bkt} (n k : Nat) :
    ((fetchBucket c kh hash key n b σ w).1 ≠ .error .hang → fetchBucket c kh hash key (n + k) b σ w = fetchBucket c kh hash key n b σ w) ∧
    ((existsBucket c kh hash key n b σ w).1 ≠ .error .hang →
      existsBucket c kh hash key (n + k) b σ w = existsBucket c kh hash key n b σ w) := by
  rw [fetchBucket_trek, fetchBucket_trek, existsBucket_trek, existsBucket_trek]
  exact ⟨trek_more n k b w, trek_more n k b w⟩

/-- **C64**, and one that does not end within the rounds given by the model does not end within any number of rounds, as long
as no file operation fails. -/
theorem C64_forever {kh : KeyHeader} {hash : Nat} {key : Bytes} {b : Bkt} {D : Bytes} (hD : bytesOf w.fs .dat = some D) (n : Nat) :
    ((fetchBucket c kh hash key (D.length + 2) b calm w).1 = .error .hang → (fetchBucket c kh hash key n b calm w).1 = .error .hang) ∧
    ((existsBucket c kh hash key (D.length + 2) b calm w).1 = .error .hang → (existsBucket c kh hash key n b calm w).1 = .error .hang) := by
  obtain ⟨f, hf, rfl⟩ := bytesOf_some hD
  rw [fetchBucket_trek, fetchBucket_trek, existsBucket_trek, existsBucket_trek]
  exact ⟨fun h => trek_forever (fs := w.fs) (fun _ => pureish_fetchLook) (fun _ => pureish_follow) (fun _ w => no_hang ends_fetchLook w)
      (fun _ w => no_hang ends_follow w) (fun _ _ e => follow_lt hf e) rfl h n,
    fun h => trek_forever (fs := w.fs) (fun _ => pureish_existsLook) (fun _ => pureish_follow) (fun _ w => no_hang ends_existsLook w)
      (fun _ w => no_hang ends_follow w) (fun _ _ e => follow_lt hf e) rfl h n⟩

end

/-- A data file with two overflow buckets that refer to each other. -/
example : Endless (oddDat (zeros 8 ++ putU16 0 ++ putU48 206 ++ zeros 96 ++ zeros 2 ++ putU16 0 ++ putU48 100 ++ zeros 96)) 5 100 := by
  refine ⟨fun i => if i % 2 = 0 then 100 else 206, rfl, fun i => ?_⟩
  have h1 : (oddDat (zeros 8 ++ putU16 0 ++ putU48 206 ++ zeros 96 ++ zeros 2 ++ putU16 0 ++ putU48 100 ++ zeros 96)).length = 310 := by
    decide +kernel
  have h2 : value (bytesAt (oddDat (zeros 8 ++ putU16 0 ++ putU48 206 ++ zeros 96 ++ zeros 2 ++ putU16 0 ++ putU48 100 ++ zeros 96)) (100 + 2) 6) = 206 := by
    decide +kernel
  have h3 : value (bytesAt (oddDat (zeros 8 ++ putU16 0 ++ putU48 206 ++ zeros 96 ++ zeros 2 ++ putU16 0 ++ putU48 100 ++ zeros 96)) (206 + 2) 6) = 100 := by
    decide +kernel
  generalize oddDat (zeros 8 ++ putU16 0 ++ putU48 206 ++ zeros 96 ++ zeros 2 ++ putU16 0 ++ putU48 100 ++ zeros 96) = D at *
  dsimp only
  rcases Nat.mod_two_eq_zero_or_one i with e | e
  · have e' : ¬ (i + 1) % 2 = 0 := by omega
    rw [if_pos e, if_neg e', h1, h2]; omega
  · have e' : (i + 1) % 2 = 0 := by omega
    have e'' : ¬ i % 2 = 0 := by omega
    rw [if_neg e'', if_pos e', h1, h3]; omega

/-- The premises of `C64_lookup`: an open store with such a data file, and a `fetch` that does not end. -/
example : ∃ s w D, Abused demoCfg (some s) w.fs ∧ bytesOf w.fs .dat = some D ∧
    (perform demoCfg (.fetch [1, 2]) (some s) calm w).1 = .error .hang := by
  have h : (match perform demoCfg .open none calm
      ⟨oddFs (oddDat (zeros 8 ++ putU16 0 ++ putU48 100 ++ zeros 96)) (oddKey 0 100), 0, []⟩ with
    | (.ok (some s, _), w) => (bytesOf w.fs .dat).isSome &&
        (match (perform demoCfg (.fetch [1, 2]) (some s) calm w).1 with | .error .hang => true | _ => false)
    | _ => false) = true := by decide +kernel
  split at h
  · rename_i s r w e
    rw [Bool.and_eq_true] at h
    obtain ⟨D, hD⟩ := Option.isSome_iff_exists.1 h.1
    refine ⟨s, w, D, .call (.closed _) ?_ e, hD, ?_⟩
    · intro _
      refine ⟨fun K hK => ?_, fun K L _ hL => by cases hL⟩
      have : oddKey 0 100 = K := Option.some.inj hK
      have hl : (oddKey 0 100).length = 208 := by decide +kernel
      rw [← this, hl]
      decide
    · have h2 := h.2
      split at h2
      · assumption
      · cases h2
  · cases h

/-- The premises of `C64_flush`: a store that is opened, into which a value is inserted, then flushed. -/
example : ∃ s w, Abused demoCfg (some s) w.fs ∧ s.p1 ≠ [] ∧ (perform demoCfg .flush (some s) calm w).2.fs .dat ≠ w.fs .dat ∧
    ∀ D o, bytesOf (perform demoCfg .flush (some s) calm w).2.fs .dat = some D → ¬ Endless D ((s.kh.blockSize - 8) / 18) o := by
  have h : (match perform demoCfg .open none calm ⟨oddFs (oddDat (zeros 0)) (oddKey 0 0), 0, []⟩ with
    | (.ok (some s, _), w) => match perform demoCfg (.insert [1, 2] [3, 4, 5]) (some s) calm w with
      | (.ok (some s, _), w) => s.p1 != [] && s.kh.blockSize == 104 &&
        (match bytesOf (perform demoCfg .flush (some s) calm w).2.fs .dat with
          | some D => D.length == 103 && some D != bytesOf w.fs .dat && (List.range 8).all fun o => D.length < value (bytesAt D (o + 2) 6)
          | none => false)
      | _ => false
    | _ => false) = true := by decide +kernel
  split at h
  · rename_i s r w e
    split at h
    · rename_i s' r' w' e'
      simp only [Bool.and_eq_true, bne_iff_ne, beq_iff_eq] at h
      obtain ⟨⟨h1, h2⟩, h3⟩ := h
      refine ⟨s', w', .call (.call (.closed _) ?_ e) (fun x => by cases x) e', h1, ?_, ?_⟩
      · intro _
        refine ⟨fun K hK => ?_, fun K L _ hL => by cases hL⟩
        have : oddKey 0 0 = K := Option.some.inj hK
        have hl : (oddKey 0 0).length = 208 := by decide +kernel
        rw [← this, hl]
        decide
      · intro heq
        split at h3
        · rename_i D hD
          simp only [Bool.and_eq_true, bne_iff_ne] at h3
          refine h3.1.2 ?_
          rw [← hD]
          unfold bytesOf
          rw [heq]
        · cases h3
      · intro D o hD ⟨f, hf0, hf⟩
        rw [hD] at h3
        simp only [Bool.and_eq_true, beq_iff_eq, List.all_eq_true, List.mem_range, decide_eq_true_eq] at h3
        have a := hf 0
        have b := hf 1
        rw [h2] at a b
        rw [hf0] at a
        have := h3.2 o (by omega)
        have e1 : f 1 = value (bytesAt D (o + 2) 6) := a.2.2
        omega
    · cases h
  · cases h

/-- A `verify` that does not end. -/
example : (verify demoCfg 216 calm ⟨oddFs (oddDat (zeros 8 ++ putU16 0 ++ putU48 100 ++ zeros 96)) (oddKey 0 100), 0, []⟩).1 =
    .error .hang := by
  have key : ∀ r : Except Exc Info, (match r with | .error .hang => true | _ => false) = true → r = .error .hang := by
    intro r h
    split at h
    · rfl
    · cases h
  exact key _ (by decide +kernel)

end NuDB
