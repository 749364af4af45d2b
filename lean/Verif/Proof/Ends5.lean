import Verif.Proof.Ends4
import Verif.Proof.VerifySound4
/-
`verify` ends unless overflow records refer to each other in circles.
-/
namespace NuDB

open Spec

section
variable {σ : Schedule} {C : Prop} {c : Cfg} {fs : Fs} {f g : FileSt}

theorem ends_fSize_at {p : Path} (hf : fs p = some f) : Ends σ (· = fs) C (fSize p) (fun n => n = f.cur.length) := by
  apply ends_fileOp
  · intro fs; split <;> simp
  · intro fs' a; split
    · rename_i f' hf'
      intro e h
      subst h
      rw [hf] at hf'
      cases hf'
      cases e
      exact ⟨rfl, rfl⟩
    · intro h; cases h

theorem ends_verify {n : Nat} (hf : fs .dat = some f) (hg : fs .key = some g) :
    Ends σ (· = fs) (∃ o, Endless f.cur (roomOf g.cur) o) (verify c n) (fun _ => True) := by
  unfold verify
  refine Ends.bind ends_fOpen fun _ _ => ?_
  refine Ends.bind ends_fOpen fun _ _ => ?_
  refine Ends.bind (R := fun dh => dh = getDatHeader (slice f.cur 0 92) ∧ 92 ≤ f.cur.length) ?_ ?_
  · unfold readDatHeader
    refine Ends.bind (ends_fRead_at hf (by decide)) fun d hd => ?_
    rw [hd.1]
    exact Ends.ret ⟨rfl, by have := hd.2; unfold datHeaderSize at this; omega⟩
  rintro dh ⟨rfl, h92⟩
  refine Ends.bind (R := fun _ => verifyDat (getDatHeader (slice f.cur 0 92)) = .ok ()) (Ends.check fun _ h => h) fun _ h1 => ?_
  refine Ends.bind (R := fun kh => kh = getKeyHeader (slice g.cur 0 104) g.cur.length ∧ 104 ≤ g.cur.length) ?_ ?_
  · unfold readKeyHeader
    refine Ends.bind (ends_fRead_at hg (by decide)) fun d hd => ?_
    rw [hd.1]
    refine Ends.bind (ends_fSize_at hg) fun m hm => ?_
    rw [hm]
    exact Ends.ret ⟨rfl, by have := hd.2; unfold keyHeaderSize at this; omega⟩
  rintro kh ⟨hkh, h104⟩
  refine Ends.bind (R := fun _ => verifyKey c.H kh = .ok ()) (Ends.check fun _ h => h) fun _ h2 => ?_
  refine Ends.bind (R := fun _ => verifyDatKey c.H (getDatHeader (slice f.cur 0 92)) kh = .ok ()) (Ends.check fun _ h => h) fun _ h3 => ?_
  have H : Heads c f.cur g.cur kh := ⟨h92, h104, hkh, h1, h2, h3⟩
  have hr : roomOf g.cur = (kh.blockSize - 8) / 18 := by unfold roomOf; rw [H.blockSize]
  rw [hr]
  refine Ends.bind ends_fSize fun ksize _ => ?_
  refine Ends.bind ends_fSize fun dsize _ => ?_
  split
  · exact ends_verifyNormal hf ⟨g, hg⟩ H.h104
  · rename_i hc
    refine ends_verifyFast ?_ hf H.h104
    unfold chooseNormal at hc
    simp only [Bool.or_eq_true, decide_eq_true_eq] at hc
    omega

end

end NuDB
