import Verif.Proof.Ends
/-
`visit`, `rekey`, `recover`, `create` and `open` end.
-/
namespace NuDB

open Spec

/-- Nothing is known about the files. -/
def anyFs : Fs → Prop := fun _ => True

section
variable {σ : Schedule} {C : Prop} {α β : Type} {R : α → Prop} {c : Cfg}

theorem Ends.caught {m : M α} (h : Ends σ anyFs C m R) : Ends σ anyFs C (M.attempt m) (fun r => ∀ a, r = .ok a → R a) :=
  h.attempt' Stays.any

theorem ends_fCreate {p : Path} : Ends σ anyFs C (fCreate p) (fun _ => True) := by
  apply ends_fileOp
  · intro fs; split <;> simp
  · intro _ _ _ _; exact ⟨trivial, trivial⟩

theorem ends_fErase {p : Path} : Ends σ anyFs C (fErase p) (fun _ => True) := by
  apply ends_fileOp
  · intro fs; split <;> simp
  · intro _ _ _ _; exact ⟨trivial, trivial⟩

theorem ends_fWrite {p : Path} {o : Nat} {b : Bytes} : Ends σ anyFs C (fWrite p o b) (fun _ => True) := by
  apply ends_fileOp
  · intro fs; split <;> simp
  · intro _ _ _ _; exact ⟨trivial, trivial⟩

theorem ends_fAppend {p : Path} {o : Nat} {b : Bytes} : Ends σ anyFs C (fAppend p o b) (fun _ => True) := by
  apply ends_fileOp
  · intro fs; split
    · split <;> simp
    · simp
  · intro _ _ _ _; exact ⟨trivial, trivial⟩

theorem ends_fSync {p : Path} : Ends σ anyFs C (fSync p) (fun _ => True) := by
  apply ends_fileOp
  · intro fs; split <;> simp
  · intro _ _ _ _; exact ⟨trivial, trivial⟩

theorem ends_fTrunc {p : Path} {n : Nat} : Ends σ anyFs C (fTrunc p n) (fun _ => True) := by
  apply ends_fileOp
  · intro fs; split <;> simp
  · intro _ _ _ _; exact ⟨trivial, trivial⟩

variable {I : Fs → Prop}

theorem Ends.checkT {r : Except Err α} : Ends σ I C (M.check r) (fun _ => True) := Ends.check fun _ _ => trivial

theorem ends_readDatHeader : Ends σ I C readDatHeader (fun _ => True) := Ends.bind ends_fRead fun _ _ => Ends.ret trivial
theorem ends_readKeyHeader : Ends σ I C readKeyHeader (fun _ => True) :=
  Ends.bind ends_fRead fun _ _ => Ends.bind ends_fSize fun _ _ => Ends.ret trivial
theorem ends_readLogHeader : Ends σ I C readLogHeader (fun _ => True) := Ends.bind ends_fRead fun _ _ => Ends.ret trivial

theorem ends_eraseFile {p : Path} : Ends σ anyFs C (eraseFile p) (fun _ => True) := by
  unfold eraseFile
  refine Ends.bind ends_fErase.caught fun r _ => ?_
  split
  · exact Ends.ret trivial
  · exact Ends.ret trivial
  · exact Ends.fail

/-! visit -/

theorem ends_visitStep {keySize fileSize last : Nat} {cb : List Event → Option Err} {r : Reader} (h : RGood last r) :
    Ends σ anyFs C (visitStep c keySize fileSize cb r) (fun r' => RGood last r' ∧ r.pos + 6 ≤ r'.pos) := by
  unfold visitStep
  refine Ends.bind h.prepare ?_
  rintro ⟨is, r1⟩ ⟨h1, e1⟩
  dsimp only at h1 e1 ⊢
  refine Ends.bind (Ends.liftT nh_getSize48) fun size _ => ?_
  split
  · refine Ends.bind h1.prepare.caught fun x hx => ?_
    cases x with
    | error e => exact Ends.bind (R := fun _ => False) (Ends.raise (fun h => by cases h)) fun _ h => h.elim
    | ok x =>
      obtain ⟨is, r2⟩ := x
      obtain ⟨h2, e2⟩ := hx _ rfl
      dsimp only at h2 e2 ⊢
      refine Ends.bind ends_emit fun _ _ => ?_
      refine Ends.bind ends_history fun l _ => ?_
      split
      · exact Ends.bind (R := fun _ => False) Ends.fail fun _ h => h.elim
      · refine Ends.bind (Ends.ret (R := fun r' => r' = r2) rfl) ?_
        rintro r' rfl
        refine Ends.bind ends_emit fun _ _ => ?_
        exact Ends.ret ⟨h2, by omega⟩
  · refine Ends.bind h1.prepare ?_
    rintro ⟨is, r2⟩ ⟨h2, e2⟩
    dsimp only at h2 e2 ⊢
    refine Ends.bind h2.prepare ?_
    rintro ⟨is, r3⟩ ⟨h3, e3⟩
    dsimp only at h3 e3 ⊢
    refine Ends.bind (Ends.ret (R := fun r' => r' = r3) rfl) ?_
    rintro r' rfl
    refine Ends.bind ends_emit fun _ _ => ?_
    exact Ends.ret ⟨h3, by omega⟩

/-- At the end, or good for reading on. -/
def RSome (last : Nat) (r : Reader) : Prop := RGood last r ∨ r.eof = true

theorem rsome_new {p : Path} {o last n : Nat} : RSome last (Reader.new c p o last n) := by
  by_cases h : o ≤ last
  · exact .inl (rgood_new h)
  · right
    unfold Reader.eof Reader.pos Reader.new
    simp
    omega

theorem RSome.good {last : Nat} {r : Reader} (h : RSome last r) (he : ¬ r.eof = true) : RGood last r ∧ r.pos < last := by
  rcases h with h | h
  · refine ⟨h, ?_⟩
    unfold Reader.eof at he
    simp at he
    exact h.2.2 ▸ he
  · exact absurd h he

theorem ends_visitLoop {keySize fileSize last : Nat} {cb : List Event → Option Err} : ∀ fuel (r : Reader), RSome last r →
    last - r.pos < fuel → Ends σ anyFs C (visitLoop c keySize fileSize cb fuel r) (fun _ => True) := by
  intro fuel
  induction fuel with
  | zero => intro _ _ h; omega
  | succ n ih =>
    intro r h hf
    unfold visitLoop
    split
    · exact Ends.ret trivial
    · rename_i he
      obtain ⟨h, hp⟩ := h.good he
      refine Ends.bind (ends_visitStep h) fun r' ⟨h1, h2⟩ => ?_
      have := h1.le
      exact ih r' (.inl h1) (by omega)

theorem ends_visit {cb : List Event → Option Err} : Ends σ anyFs C (visit c cb) (fun _ => True) := by
  unfold visit
  refine Ends.bind ends_fOpen fun _ _ => ?_
  refine Ends.bind ends_readDatHeader fun dh _ => ?_
  refine Ends.bind Ends.checkT fun _ _ => ?_
  refine Ends.bind ends_fSize fun n _ => ?_
  refine Ends.bind ends_emit fun _ _ => ?_
  exact ends_visitLoop (last := n) _ _ rsome_new (by omega)

/-! rekey -/

theorem ends_flushW {w : Writer} : Ends σ anyFs C w.flush (fun _ => True) := by
  unfold Writer.flush
  split
  · exact Ends.bind ends_fAppend fun _ _ => Ends.ret trivial
  · exact Ends.ret trivial

theorem ends_append {w : Writer} {bs : Bytes} : Ends σ anyFs C (w.append bs) (fun _ => True) := by
  unfold Writer.append
  dsimp only
  split
  · refine Ends.bind ends_flushW fun _ _ => ?_
    exact Ends.ret trivial
  · refine Ends.bind (R := fun _ => True) (Ends.ret trivial) fun _ _ => ?_
    exact Ends.ret trivial

theorem ends_maybeSpill {b : Bkt} {w : Writer} : Ends σ anyFs C (maybeSpill b w) (fun _ => True) := by
  unfold maybeSpill
  split
  · refine Ends.bind (Ends.liftT nh_peek) fun _ _ => ?_
    refine Ends.bind (Ends.liftT nh_assert) fun _ _ => ?_
    refine Ends.bind ends_append fun _ _ => ?_
    refine Ends.bind (Ends.liftT nh_clear) fun _ _ => ?_
    refine Ends.bind (Ends.liftT nh_update) fun _ _ => ?_
    exact Ends.ret trivial
  · exact Ends.ret trivial

theorem ends_rekeyStep {kh : KeyHeader} {b0 b1 pre nwork last : Nat} {buf : List Bytes} {dw : Writer} {r : Reader}
    (h : RGood last r) : Ends σ anyFs C (rekeyStep c kh b0 b1 pre nwork buf dw r)
      (fun x => RGood last x.2.2 ∧ r.pos + 6 ≤ x.2.2.pos) := by
  unfold rekeyStep
  dsimp only
  refine Ends.bind h.prepare ?_
  rintro ⟨is, r1⟩ ⟨h1, e1⟩
  dsimp only at h1 e1 ⊢
  refine Ends.bind ends_emit fun _ _ => ?_
  refine Ends.bind (Ends.liftT nh_getSize48) fun size _ => ?_
  split
  · refine Ends.bind h1.prepare ?_
    rintro ⟨is, r2⟩ ⟨h2, e2⟩
    dsimp only at h2 e2 ⊢
    refine Ends.bind (Ends.liftT nh_bucketIndexA) fun n _ => ?_
    split
    · exact Ends.ret ⟨h2, by dsimp only; omega⟩
    · split
      · exact Ends.raise (fun h => by cases h)
      · refine Ends.bind (Ends.liftT nh_ofMem) fun b _ => ?_
        refine Ends.bind ends_maybeSpill fun x _ => ?_
        refine Ends.bind (Ends.liftT nh_insert) fun b _ => ?_
        exact Ends.ret ⟨h2, by dsimp only; omega⟩
  · refine Ends.bind h1.prepare ?_
    rintro ⟨is, r2⟩ ⟨h2, e2⟩
    dsimp only at h2 e2 ⊢
    refine Ends.bind h2.prepare ?_
    rintro ⟨is, r3⟩ ⟨h3, e3⟩
    dsimp only at h3 e3 ⊢
    exact Ends.ret ⟨h3, by dsimp only; omega⟩

theorem ends_rekeyScan {kh : KeyHeader} {b0 b1 pre nwork last : Nat} : ∀ fuel (buf : List Bytes) (dw : Writer) (r : Reader),
    RSome last r → last - r.pos < fuel → Ends σ anyFs C (rekeyScan c kh b0 b1 pre nwork fuel buf dw r) (fun _ => True) := by
  intro fuel
  induction fuel with
  | zero => intro _ _ _ _ h; omega
  | succ n ih =>
    intro buf dw r h hf
    unfold rekeyScan
    split
    · exact Ends.ret trivial
    · rename_i he
      obtain ⟨h, hp⟩ := h.good he
      refine Ends.bind (ends_rekeyStep h) ?_
      rintro ⟨buf', dw', r'⟩ ⟨h1, h2⟩
      dsimp only at h1 h2
      have := h1.le
      exact ih _ _ _ (.inl h1) (by omega)

theorem ends_rekeyChunks {kh : KeyHeader} {size chunk nwork : Nat} (hc : 1 ≤ chunk) : ∀ fuel b0 (dw : Writer),
    kh.buckets - b0 < fuel → Ends σ anyFs C (rekeyChunks c kh size chunk nwork fuel b0 dw) (fun _ => True) := by
  intro fuel
  induction fuel with
  | zero => intro _ _ h; omega
  | succ n ih =>
    intro b0 dw hf
    unfold rekeyChunks
    split
    · dsimp only
      refine Ends.bind (Ends.liftT (nh_emptyBuckets _)) fun buf _ => ?_
      refine Ends.bind (ends_rekeyScan (last := size) _ _ _ _ rsome_new (by omega)) fun x _ => ?_
      refine Ends.bind ends_fWrite fun _ _ => ?_
      exact ih _ _ (by omega)
    · exact Ends.ret trivial

theorem ends_rekey {a : RekeyArgs} : Ends σ anyFs C (rekey c a) (fun _ => True) := by
  unfold rekey
  refine Ends.bind ends_fOpen fun _ _ => ?_
  refine Ends.bind ends_readDatHeader fun dh _ => ?_
  refine Ends.bind Ends.checkT fun _ _ => ?_
  refine Ends.bind ends_fSize fun n _ => ?_
  refine Ends.bind ends_fOpen.caught fun x _ => ?_
  split
  · exact Ends.fail
  · refine Ends.bind (Ends.liftT nh_fixed) fun lf _ => ?_
    dsimp only
    refine Ends.bind (R := fun _ => True) ?_ fun _ _ => ?_
    · unfold rekeyPrepare
      refine Ends.bind ends_fCreate fun _ _ => ?_
      refine Ends.bind (Ends.liftT nh_assert) fun _ _ => ?_
      refine Ends.bind ends_fWrite fun _ _ => ?_
      refine Ends.bind ends_fSync fun _ _ => ?_
      refine Ends.bind ends_fCreate fun _ _ => ?_
      refine Ends.bind ends_fAppend fun _ _ => ?_
      exact ends_fSync
    refine Ends.bind (R := fun _ => True) ?_ fun _ _ => ?_
    · unfold rekeyAlloc
      refine Ends.bind (Ends.liftT nh_poke) fun _ _ => ?_
      refine Ends.bind ends_fWrite fun _ _ => ?_
      refine Ends.bind ends_fSync fun _ _ => ?_
      refine Ends.bind ends_fWrite fun _ _ => ?_
      exact ends_fSync
    refine Ends.bind ends_emit fun _ _ => ?_
    refine Ends.bind (ends_rekeyChunks (by omega) _ _ _ (by omega)) fun dw _ => ?_
    refine Ends.bind ends_flushW fun _ _ => ?_
    exact ends_fErase
  · exact Ends.fail

/-! recover, open -/

theorem ends_readHead {b : Bkt} {r : Reader} {last : Nat} (h : RGood last r) :
    Ends σ I C (b.readHead c r) (fun x => RGood last x.2 ∧ x.2.pos = r.pos + 8 ∧ x.1.bs = b.bs) := by
  unfold Bkt.readHead
  refine Ends.bind h.prepare ?_
  rintro ⟨is, r1⟩ ⟨h1, e1⟩
  dsimp only at h1 e1 ⊢
  refine Ends.bind (R := fun b' => b'.bs = b.bs) (Ends.lift nh_update ?_) fun b' hb => ?_
  · intro b' hb
    unfold Bkt.update assert at hb
    dsimp only at hb
    split at hb
    · split at hb
      · unfold poke at hb
        change (if _ then _ else _ : Res Bytes) >>= _ = _ at hb
        split at hb
        · cases hb; rfl
        · cases hb
      · cases hb
    · cases hb
  · exact Ends.ret ⟨h1, e1, hb⟩

theorem ends_readBody {b : Bkt} {r : Reader} {last : Nat} (h : RGood last r) :
    Ends σ I C (b.readBody c r) (fun x => RGood last x.2 ∧ r.pos ≤ x.2.pos ∧ x.1.bs = b.bs) := by
  unfold Bkt.readBody
  refine Ends.bind h.prepare ?_
  rintro ⟨is, r1⟩ ⟨h1, e1⟩
  dsimp only at h1 e1 ⊢
  refine Ends.bind (Ends.liftT nh_poke) fun p _ => ?_
  exact Ends.ret ⟨h1, by dsimp only; omega, rfl⟩

theorem ends_readBulk {b : Bkt} {r : Reader} {last : Nat} (h : RGood last r) :
    Ends σ I C (b.readBulk c r) (fun x => RGood last x.2 ∧ r.pos ≤ x.2.pos ∧ x.1.bs = b.bs) := by
  unfold Bkt.readBulk
  refine Ends.bind (ends_readHead h) ?_
  rintro ⟨b1, r1⟩ ⟨h1, e1, f1⟩
  dsimp only at h1 e1 f1 ⊢
  exact (ends_readBody h1).mono (fun h => h) fun x hx => ⟨hx.1, by omega, hx.2.2.trans f1⟩

theorem ends_recoverWrite {kh : KeyHeader} {d n : Nat} {b : Bkt} : Ends σ anyFs C (recoverWrite kh d n b) (fun _ => True) := by
  unfold recoverWrite
  split
  · exact Ends.fail
  · split
    · exact Ends.fail
    · refine Ends.bind (Ends.liftT nh_padded) fun p _ => ?_
      exact Ends.bind ends_fWrite fun _ _ => Ends.ret trivial

theorem ends_recoverStep {kh : KeyHeader} {d last : Nat} {b : Bkt} {r : Reader} (h : RSome last r) :
    Ends σ anyFs C (recoverStep c kh d b r)
      (fun x => match x with | .done => True | .next _ r' => RGood last r' ∧ r.pos < r'.pos) := by
  unfold recoverStep
  split
  · exact Ends.ret trivial
  rename_i he
  obtain ⟨h, hp⟩ := h.good he
  refine Ends.bind h.prepare.caught fun x hx => ?_
  split
  · exact Ends.ret trivial
  · exact Ends.fail
  · rename_i is r1
    obtain ⟨h1, e1⟩ := hx _ rfl
    dsimp only at h1 e1 ⊢
    refine Ends.bind (Ends.liftT nh_assert) fun _ _ => ?_
    refine Ends.bind (ends_readHead h1).caught fun x hx => ?_
    split
    · exact Ends.ret trivial
    · exact Ends.bind ends_recoverWrite fun _ _ => Ends.fail
    · rename_i b2 r2
      obtain ⟨h2, e2, _⟩ := hx _ rfl
      dsimp only at h2 e2 ⊢
      refine Ends.bind (ends_readBody h2).caught fun x hx => ?_
      split
      · exact Ends.ret trivial
      · exact Ends.bind ends_recoverWrite fun _ _ => Ends.fail
      · rename_i b3 r3
        obtain ⟨h3, e3, _⟩ := hx _ rfl
        dsimp only at h3 e3 ⊢
        refine Ends.bind ends_recoverWrite fun b _ => ?_
        exact Ends.ret ⟨h3, by omega⟩

theorem ends_recoverLoop {kh : KeyHeader} {d last : Nat} : ∀ fuel (b : Bkt) (r : Reader), RSome last r →
    last - r.pos < fuel → Ends σ anyFs C (recoverLoop c kh d fuel b r) (fun _ => True) := by
  intro fuel
  induction fuel with
  | zero => intro _ _ _ h; omega
  | succ n ih =>
    intro b r h hf
    unfold recoverLoop
    refine Ends.bind (ends_recoverStep h) fun x hx => ?_
    split
    · exact Ends.ret trivial
    · obtain ⟨h1, h2⟩ := hx
      have := h1.le
      exact ih _ _ (.inl h1) (by omega)

theorem ends_clearLog : Ends σ anyFs C clearLog (fun _ => True) :=
  Ends.bind ends_fTrunc fun _ _ => Ends.bind ends_fSync fun _ _ => ends_fErase

theorem ends_truncFiles {lh : LogHeader} : Ends σ anyFs C (truncFiles lh) (fun _ => True) := by
  unfold truncFiles
  refine Ends.bind ends_fTrunc fun _ _ => ?_
  refine Ends.bind ends_fSync fun _ _ => ?_
  split
  · refine Ends.bind ends_fTrunc fun _ _ => ?_
    exact Ends.bind ends_fSync fun _ _ => ends_clearLog
  · exact Ends.bind ends_fErase fun _ _ => ends_clearLog

theorem ends_recover : Ends σ anyFs C (recover c) (fun _ => True) := by
  unfold recover
  refine Ends.bind ends_fOpen fun _ _ => ?_
  refine Ends.bind ends_fSize fun n _ => ?_
  refine Ends.bind ends_readDatHeader fun dh _ => ?_
  refine Ends.bind Ends.checkT fun _ _ => ?_
  refine Ends.bind ends_fOpen fun _ _ => ?_
  refine Ends.bind ends_fSize fun m _ => ?_
  split
  · refine Ends.bind ends_eraseFile fun _ _ => ?_
    exact Ends.bind ends_fErase fun _ _ => Ends.fail
  · refine Ends.bind ends_fOpen.caught fun x _ => ?_
    split
    · exact Ends.ret trivial
    · exact Ends.fail
    · refine Ends.bind ends_fSize fun l _ => ?_
      refine Ends.bind ends_readLogHeader.caught fun x _ => ?_
      split
      · exact ends_clearLog
      · exact Ends.fail
      · refine Ends.bind Ends.checkT fun _ _ => ?_
        split
        · exact ends_truncFiles
        · refine Ends.bind (R := fun _ => True) ?_ fun _ _ => ends_truncFiles
          unfold replayLog
          refine Ends.bind ends_readKeyHeader fun kh _ => ?_
          refine Ends.bind Ends.checkT fun _ _ => ?_
          refine Ends.bind Ends.checkT fun _ _ => ?_
          refine Ends.bind Ends.checkT fun _ _ => ?_
          refine Ends.bind (Ends.liftT nh_ofMem) fun b _ => ?_
          exact ends_recoverLoop (last := l) _ _ _ rsome_new (by omega)

theorem ends_open : Ends σ anyFs C (openStore c) (fun _ => True) := by
  unfold openStore
  refine Ends.bind ends_recover fun _ _ => ?_
  refine Ends.bind ends_fOpen fun _ _ => ?_
  refine Ends.bind ends_fOpen fun _ _ => ?_
  refine Ends.bind ends_fCreate fun _ _ => ?_
  refine Ends.bind ends_readDatHeader fun dh _ => ?_
  refine Ends.bind Ends.checkT fun _ _ => ?_
  refine Ends.bind ends_readKeyHeader fun kh _ => ?_
  refine Ends.bind Ends.checkT fun _ _ => ?_
  refine Ends.bind Ends.checkT fun _ _ => ?_
  dsimp only
  split
  · exact Ends.fail
  · exact Ends.ret trivial

/-! create -/

theorem ends_eraseQuiet {p : Path} : Ends σ anyFs C (eraseQuiet p) (fun _ => True) :=
  Ends.bind ends_fErase.caught fun _ _ => Ends.ret trivial

theorem ends_createBody {asserts : Bool} {a : CreateArgs} : Ends σ anyFs C (createBody c asserts a) (fun _ => True) := by
  unfold createBody
  refine Ends.bind (Ends.liftT nh_fixed) fun lf _ => ?_
  dsimp only
  refine Ends.bind (Ends.liftT nh_assert) fun _ _ => ?_
  refine Ends.bind ends_fAppend fun _ _ => ?_
  split
  · exact Ends.bind (R := fun _ => False) Ends.fail fun _ h => h.elim
  · refine Ends.bind (Ends.liftT nh_poke) fun _ _ => ?_
    refine Ends.bind ends_fAppend fun _ _ => ?_
    refine Ends.bind (Ends.liftT nh_ofEmpty) fun _ _ => ?_
    refine Ends.bind (Ends.liftT nh_padded) fun _ _ => ?_
    refine Ends.bind ends_fAppend fun _ _ => ?_
    exact Ends.bind ends_fSync fun _ _ => Ends.bind ends_fSync fun _ _ => ends_fSync

theorem ends_create {asserts : Bool} {a : CreateArgs} : Ends σ anyFs C (create c asserts a) (fun _ => True) := by
  unfold create
  split
  · exact Ends.fail
  split
  · exact Ends.fail
  split
  · exact Ends.fail
  split
  · exact Ends.fail
  refine Ends.bind ends_fCreate.caught fun x _ => ?_
  split
  · exact Ends.fail
  refine Ends.bind ends_fCreate.caught fun x _ => ?_
  split
  · exact Ends.bind ends_eraseQuiet fun _ _ => Ends.fail
  refine Ends.bind ends_fCreate.caught fun x _ => ?_
  split
  · exact Ends.bind ends_eraseQuiet fun _ _ => Ends.bind ends_eraseQuiet fun _ _ => Ends.fail
  refine Ends.bind ends_createBody.caught fun x _ => ?_
  split
  · exact Ends.bind ends_eraseQuiet fun _ _ => Ends.bind ends_eraseQuiet fun _ _ => Ends.bind ends_eraseQuiet fun _ _ => Ends.fail
  · exact Ends.ret trivial

end

end NuDB
