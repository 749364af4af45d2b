import Verif.Proof.Progress
import Verif.Spec.Display
/-
Lemmas for C88: the first report of each algorithm is that of no work done; lines of the display.
-/
namespace NuDB

open Spec

/-- `m` only adds to the history. -/
structure Tells (m : M α) : Prop where
  go : ∀ σ w, ∃ evs, (m σ w).2.out = w.out ++ evs

/-- The first report of `m`, if any, is that of no work done. -/
structure FirstZero (m : M α) : Prop where
  go : ∀ σ w, ∃ evs, (m σ w).2.out = w.out ++ evs ∧ ∀ p ∈ (progressed evs).head?, p.1 = 0

section
variable {α β : Type}

theorem Silent.tells {m : M α} (h : Silent m) : Tells m := ⟨fun σ w => ⟨[], by rw [h.go, List.append_nil]⟩⟩

theorem Tells.emit (e : Event) : Tells (emit e) := ⟨fun _ _ => ⟨[e], rfl⟩⟩

theorem Tells.bind {m : M α} {k : α → M β} (h : Tells m) (hk : ∀ a, Tells (k a)) : Tells (m >>= k) := by
  refine ⟨fun σ w => ?_⟩
  show ∃ evs, (M.bind m k σ w).2.out = w.out ++ evs
  obtain ⟨evs, h1⟩ := h.go σ w
  unfold M.bind
  split
  · rename_i a w' e
    rw [e] at h1
    obtain ⟨evs', h2⟩ := (hk a).go σ w'
    exact ⟨evs ++ evs', by rw [h2, h1, List.append_assoc]⟩
  · rename_i x w' e; rw [e] at h1; exact ⟨evs, h1⟩

theorem Silent.firstZero {m : M α} (h : Silent m) : FirstZero m :=
  ⟨fun σ w => ⟨[], by rw [h.go, List.append_nil], by simp [progressed]⟩⟩

theorem FirstZero.after {m : M α} {k : α → M β} (h : Silent m) (hk : ∀ a, FirstZero (k a)) : FirstZero (m >>= k) := by
  refine ⟨fun σ w => ?_⟩
  show ∃ evs, (M.bind m k σ w).2.out = w.out ++ evs ∧ _
  have h1 := h.go σ w
  unfold M.bind
  split
  · rename_i a w' e
    rw [e] at h1
    obtain ⟨evs, h2, h3⟩ := (hk a).go σ w'
    exact ⟨evs, by rw [h2]; exact congrArg (· ++ evs) h1, h3⟩
  · rename_i x w' e; rw [e] at h1; exact ⟨[], by rw [List.append_nil]; exact h1, by simp [progressed]⟩

theorem FirstZero.report {n : Nat} {k : Unit → M β} (hk : Tells (k ())) : FirstZero (emit (.progress 0 n) >>= k) := by
  refine ⟨fun σ w => ?_⟩
  obtain ⟨evs, h⟩ := hk.go σ { w with out := w.out ++ [.progress 0 n] }
  exact ⟨.progress 0 n :: evs, by
    show (k () σ { w with out := w.out ++ [.progress 0 n] }).2.out = _
    rw [h]; simp, by simp [progressed]⟩

end

/-- Apply the rules above and rules for given functions. -/
local macro "tells" "[" ts:term,* "]" : tactic => do
  let ts := ts.getElems
  let mut alts ← `(tactic| fail)
  for t in ts do
    alts ← `(tactic| first | exact $t | $alts:tactic)
  `(tactic| repeat' (first
    | $alts:tactic
    | assumption
    | exact Tells.emit _
    | exact (Silent.ret _).tells | exact (Silent.raise _).tells | exact (Silent.fail _).tells | exact (Silent.lift _).tells
    | exact Silent.history.tells | exact Silent.lookupFuel.tells
    | exact (Silent.check _).tells
    | exact Silent.fSize.tells | exact Silent.fRead.tells | exact Silent.fWrite.tells | exact Silent.fAppend.tells
    | exact Silent.fErase.tells
    | exact Silent.prepare.tells | exact (Silent.attempt Silent.prepare).tells | exact (Silent.shortAs Silent.prepare).tells
    | exact Silent.readFile.tells | exact Silent.flush.tells | exact Silent.maybeSpill.tells
    | exact (Silent.shortAs Silent.fRead).tells
    | apply Tells.bind | intro _ | dsimp only | split))

section
variable {c : Cfg}

private theorem tells_visitLoop {ks n : Nat} {cb : List Event → Option Err} : ∀ fuel r, Tells (visitLoop c ks n cb fuel r) := by
  have h : ∀ r, Tells (visitStep c ks n cb r) := by
    intro r; unfold visitStep; tells []
  intro fuel
  induction fuel with
  | zero => intro r; exact (Silent.raise _).tells
  | succ k ih => intro r; unfold visitLoop; tells [h _, ih _]

private theorem tells_rekeyChunks {kh : KeyHeader} {size chunk nwork : Nat} :
    ∀ fuel b0 dw, Tells (rekeyChunks c kh size chunk nwork fuel b0 dw) := by
  have h : ∀ {b0 b1 pre} buf dw r, Tells (rekeyStep c kh b0 b1 pre nwork buf dw r) := by
    intro b0 b1 pre buf dw r; unfold rekeyStep; tells []
  have h2 : ∀ {b0 b1 pre} fuel buf dw r, Tells (rekeyScan c kh b0 b1 pre nwork fuel buf dw r) := by
    intro b0 b1 pre fuel
    induction fuel with
    | zero => intro buf dw r; exact (Silent.raise _).tells
    | succ k ih => intro buf dw r; unfold rekeyScan; tells [h _ _ _, ih _ _ _]
  intro fuel
  induction fuel with
  | zero => intro b0 dw; exact (Silent.raise _).tells
  | succ k ih => intro b0 dw; unfold rekeyChunks; tells [h2 _ _ _ _, ih _ _]

private theorem tells_readBulk {b : Bkt} {r : Reader} : Silent (b.readBulk c r) := by
  unfold Bkt.readBulk Bkt.readHead Bkt.readBody
  repeat' (first
    | exact Silent.prepare | exact Silent.ret _ | exact Silent.lift _ | exact Silent.raise _ | exact Silent.fail _
    | apply Silent.bind | intro _ | dsimp only | split)

private theorem tells_normalScan {kh : KeyHeader} {nwork : Nat} :
    ∀ fuel b r work info, Tells (normalScan c kh nwork fuel b r work info) := by
  have h : ∀ b r work info, Tells (normalStep c kh nwork b r work info) := by
    intro b r work info; unfold normalStep
    tells [(Silent.seekValue _ _ _).tells, (Silent.shortAs tells_readBulk).tells]
  intro fuel
  induction fuel with
  | zero => intro b r work info; exact (Silent.raise _).tells
  | succ k ih => intro b r work info; unfold normalScan; tells [h _ _ _ _, ih _ _ _ _]

private theorem tells_normalBuckets {kh : KeyHeader} {nwork : Nat} :
    ∀ k n b work info, Tells (normalBuckets c kh nwork k n b work info) := by
  have h1 : ∀ {b spill} fuel i work, Tells (normalEntries c kh b spill fuel i work) := by
    intro b spill fuel
    induction fuel with
    | zero => intro i work; exact (Silent.raise _).tells
    | succ k ih => intro i work; unfold normalEntries; tells [ih _ _]
  have h2 : ∀ fuel b spill work nspill info, Tells (normalChain c kh fuel b spill work nspill info) := by
    intro fuel
    induction fuel with
    | zero => intro b spill work nspill info; exact (Silent.raise _).tells
    | succ k ih => intro b spill work nspill info; unfold normalChain; tells [ih _ _ _ _ _, h1 _ _ _]
  intro k
  induction k with
  | zero => intro n b work info; exact (Silent.ret _).tells
  | succ k ih => intro n b work info; unfold normalBuckets; tells [h2 _ _ _ _ _ _, ih _ _ _ _]

private theorem tells_fastChunks {kh : KeyHeader} {size chunk nwork : Nat} :
    ∀ fuel b0 work mem tmp info, Tells (fastChunks c kh size chunk nwork fuel b0 work mem tmp info) := by
  have h : ∀ {b0 b1 work mem} tmp nkeys r info, Tells (fastStep c kh b0 b1 work nwork mem tmp nkeys r info) := by
    intro b0 b1 work mem tmp nkeys r info; unfold fastStep
    tells [(Silent.seekValueFast _ _ _ _).tells]
  have h2 : ∀ {b0 b1 work mem} fuel tmp nkeys r info, Tells (fastScan c kh b0 b1 work nwork mem fuel tmp nkeys r info) := by
    intro b0 b1 work mem fuel
    induction fuel with
    | zero => intro tmp nkeys r info; exact (Silent.raise _).tells
    | succ k ih => intro tmp nkeys r info; unfold fastScan; tells [h _ _ _ _, ih _ _ _ _]
  intro fuel
  induction fuel with
  | zero => intro b0 work mem tmp info; exact (Silent.raise _).tells
  | succ k ih =>
    intro b0 work mem tmp info; unfold fastChunks
    tells [(Silent.fastCounts _ _ _ _).tells, h2 _ _ _ _ _, ih _ _ _ _ _]

theorem firstZero_visit {cb : List Event → Option Err} : FirstZero (visit c cb) := by
  unfold visit
  apply FirstZero.after Silent.fOpen; intro _
  apply FirstZero.after Silent.readDatHeader; intro _
  apply FirstZero.after (Silent.check _); intro _
  apply FirstZero.after Silent.fSize; intro _
  exact FirstZero.report (tells_visitLoop _ _)

theorem firstZero_rekey {a : RekeyArgs} : FirstZero (rekey c a) := by
  unfold rekey
  apply FirstZero.after Silent.fOpen; intro _
  apply FirstZero.after Silent.readDatHeader; intro _
  apply FirstZero.after (Silent.check _); intro _
  apply FirstZero.after Silent.fSize; intro _
  apply FirstZero.after (Silent.attempt Silent.fOpen); intro r
  split
  · exact (Silent.fail _).firstZero
  · apply FirstZero.after (Silent.lift _); intro _
    apply FirstZero.after Silent.rekeyPrepare; intro _
    apply FirstZero.after Silent.rekeyAlloc; intro _
    apply FirstZero.report
    tells [tells_rekeyChunks _ _ _]
  · exact (Silent.fail _).firstZero

theorem firstZero_verify {n : Nat} : FirstZero (verify c n) := by
  unfold verify
  apply FirstZero.after Silent.fOpen; intro _
  apply FirstZero.after Silent.fOpen; intro _
  apply FirstZero.after Silent.readDatHeader; intro _
  apply FirstZero.after (Silent.check _); intro _
  apply FirstZero.after Silent.readKeyHeader; intro _
  apply FirstZero.after (Silent.check _); intro _
  apply FirstZero.after (Silent.check _); intro _
  apply FirstZero.after Silent.fSize; intro _
  apply FirstZero.after Silent.fSize; intro _
  split
  · unfold verifyNormal
    apply FirstZero.report
    tells [tells_normalScan _ _ _ _ _, tells_normalBuckets _ _ _ _ _]
  · unfold verifyFast
    split
    · exact (Silent.raise _).firstZero
    · apply FirstZero.report
      tells [tells_fastChunks _ _ _ _ _ _]

end

end NuDB
