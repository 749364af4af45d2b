import Verif.Proof.Hoare
import Verif.Model.Verify
/- Which files a program leaves alone, whatever happens. -/
namespace NuDB

/-- `m` does not change file `p`, whatever the schedule and the outcome. -/
structure Spares (p : Path) (m : M α) : Prop where
  go : ∀ σ w, (m σ w).2.fs p = w.fs p

/-- `m` changes no file. -/
def ReadOnly (m : M α) : Prop := ∀ p, Spares p m

section
variable {p q : Path} {α β : Type}

theorem Spares.ret (a : α) : Spares p (M.ret a) := ⟨fun _ _ => rfl⟩
theorem Spares.pure (a : α) : Spares p (Pure.pure a : M α) := ⟨fun _ _ => rfl⟩
theorem Spares.raise (x : Exc) : Spares p (M.raise x : M α) := ⟨fun _ _ => rfl⟩
theorem Spares.fail (e : Err) : Spares p (M.fail e : M α) := ⟨fun _ _ => rfl⟩
theorem Spares.lift (r : Res α) : Spares p (M.lift r) := ⟨fun _ _ => rfl⟩
theorem Spares.check (r : Except Err α) : Spares p (M.check r) := by
  refine ⟨fun σ w => ?_⟩; unfold M.check; split <;> rfl
theorem Spares.emit (e : Event) : Spares p (NuDB.emit e) := ⟨fun _ _ => rfl⟩
theorem Spares.history : Spares p NuDB.history := ⟨fun _ _ => rfl⟩
theorem Spares.lookupFuel : Spares p NuDB.lookupFuel := ⟨fun _ _ => rfl⟩

theorem Spares.bind {m : M α} {k : α → M β} (h : Spares p m) (hk : ∀ a, Spares p (k a)) : Spares p (m >>= k) := by
  refine ⟨fun σ w => ?_⟩
  show (M.bind m k σ w).2.fs p = _
  unfold M.bind
  have := h.go σ w
  split
  · rename_i a w' e; rw [e] at this; rw [(hk a).go σ w']; exact this
  · rename_i x w' e; rw [e] at this; exact this

theorem Spares.attempt {m : M α} (h : Spares p m) : Spares p (M.attempt m) := by
  refine ⟨fun σ w => ?_⟩
  unfold M.attempt
  have := h.go σ w
  split <;> (rename_i e; rw [e] at this; exact this)

theorem Spares.fileOp {ok : Fs → Except Exc α × Fs} {part : Fs → Nat → Fs} (h1 : ∀ fs, (ok fs).2 p = fs p)
    (h2 : ∀ fs k, part fs k p = fs p) : Spares p (fileOp ok part) := by
  refine ⟨fun σ w => ?_⟩
  unfold NuDB.fileOp
  split
  · exact h1 _
  · exact h2 _ _
  · exact h2 _ _

theorem set_other' (fs : Fs) (f : Option FileSt) (h : p ≠ q) : (fs.set q f) p = fs p := by
  simp [Fs.set, h]

theorem Spares.fOpen : Spares p (fOpen q) := by
  apply Spares.fileOp
  · intro fs; split <;> rfl
  · intro fs k; rfl

theorem Spares.fSize : Spares p (fSize q) := by
  apply Spares.fileOp
  · intro fs; split <;> rfl
  · intro fs k; rfl

theorem Spares.fRead {o n : Nat} : Spares p (fRead q o n) := by
  apply Spares.fileOp
  · intro fs; split
    · split <;> rfl
    · rfl
  · intro fs k; rfl

theorem Spares.fCreate (h : p ≠ q) : Spares p (fCreate q) := by
  apply Spares.fileOp
  · intro fs; split
    · rfl
    · exact set_other' _ _ h
  · intro fs k; split
    · exact set_other' _ _ h
    · rfl

theorem Spares.fErase (h : p ≠ q) : Spares p (fErase q) := by
  apply Spares.fileOp
  · intro fs; split
    · exact set_other' _ _ h
    · rfl
  · intro fs k; rfl

theorem Spares.fWrite {o : Nat} {bs : Bytes} (h : p ≠ q) : Spares p (fWrite q o bs) := by
  apply Spares.fileOp
  · intro fs; split
    · exact set_other' _ _ h
    · rfl
  · intro fs k; cases fs q
    · rfl
    · exact set_other' _ _ h

theorem Spares.fAppend {o : Nat} {bs : Bytes} (h : p ≠ q) : Spares p (fAppend q o bs) := by
  apply Spares.fileOp
  · intro fs; split
    · split
      · exact set_other' _ _ h
      · rfl
    · rfl
  · intro fs k; cases fs q
    · rfl
    · simp only
      split
      · exact set_other' _ _ h
      · rfl

theorem Spares.fSync (h : p ≠ q) : Spares p (fSync q) := by
  apply Spares.fileOp
  · intro fs; split
    · exact set_other' _ _ h
    · rfl
  · intro fs k; rfl

theorem Spares.fTrunc {n : Nat} (h : p ≠ q) : Spares p (fTrunc q n) := by
  apply Spares.fileOp
  · intro fs; split
    · exact set_other' _ _ h
    · rfl
  · intro fs k; rfl

end

theorem wp_spares {p : Path} {α : Type} {m : M α} (h : Spares p m) {σ : Schedule} {w : World} {Q : α → World → Prop}
    {X : Exc → World → Prop} (hQ : ∀ a w', w'.fs p = w.fs p → Q a w') (hX : ∀ x w', w'.fs p = w.fs p → X x w') :
    wp σ m Q X w := by
  have := h.go σ w
  unfold wp
  split
  · rename_i e; rw [e] at this; exact hQ _ _ this
  · rename_i e; rw [e] at this; exact hX _ _ this

theorem wp_readonly {α : Type} {m : M α} (h : ReadOnly m) {σ : Schedule} {w : World} {Q : α → World → Prop}
    {X : Exc → World → Prop} (hQ : ∀ a w', w'.fs = w.fs → Q a w') (hX : ∀ x w', w'.fs = w.fs → X x w') :
    wp σ m Q X w := by
  have : (m σ w).2.fs = w.fs := funext fun p => (h p).go σ w
  unfold wp
  split
  · rename_i e; rw [e] at this; exact hQ _ _ this
  · rename_i e; rw [e] at this; exact hX _ _ this

/-- Apply the rules above. -/
macro "spares" : tactic => `(tactic| repeat' (first
  | assumption
  | exact Spares.ret _ | exact Spares.pure _ | exact Spares.raise _ | exact Spares.fail _ | exact Spares.lift _
  | exact Spares.check _ | exact Spares.emit _ | exact Spares.history | exact Spares.lookupFuel
  | exact Spares.fOpen | exact Spares.fSize | exact Spares.fRead
  | (apply Spares.fCreate; first | decide | assumption)
  | (apply Spares.fErase; first | decide | assumption)
  | (apply Spares.fWrite; first | decide | assumption)
  | (apply Spares.fAppend; first | decide | assumption)
  | (apply Spares.fSync; first | decide | assumption)
  | (apply Spares.fTrunc; first | decide | assumption)
  | apply Spares.bind | apply Spares.attempt | intro _ | split))

section
variable {p q : Path} {c : Cfg}

theorem Spares.readDatHeader : Spares p readDatHeader := by unfold NuDB.readDatHeader; spares
theorem Spares.readKeyHeader : Spares p readKeyHeader := by unfold NuDB.readKeyHeader; spares
theorem Spares.readLogHeader : Spares p readLogHeader := by unfold NuDB.readLogHeader; spares
theorem Spares.eraseFile (h : p ≠ q) : Spares p (eraseFile q) := by unfold NuDB.eraseFile; spares
theorem Spares.eraseQuiet (h : p ≠ q) : Spares p (eraseQuiet q) := by unfold NuDB.eraseQuiet; spares
theorem Spares.readFile {b : Bkt} {o : Nat} : Spares p (b.readFile q o) := by unfold Bkt.readFile; spares
theorem Spares.writeFile {b : Bkt} {o : Nat} (h : p ≠ q) : Spares p (b.writeFile q o) := by
  unfold Bkt.writeFile; spares
theorem Spares.prepare {r : Reader} {n : Nat} : Spares p (r.prepare c n) := by unfold Reader.prepare; spares
theorem Spares.readHead {b : Bkt} {r : Reader} : Spares p (b.readHead c r) := by
  unfold Bkt.readHead; apply Spares.bind Spares.prepare; spares
theorem Spares.readBody {b : Bkt} {r : Reader} : Spares p (b.readBody c r) := by
  unfold Bkt.readBody; apply Spares.bind Spares.prepare; spares
theorem Spares.readBulk {b : Bkt} {r : Reader} : Spares p (b.readBulk c r) := by
  unfold Bkt.readBulk; apply Spares.bind Spares.readHead; intro a; exact Spares.readBody
theorem Spares.clearLog (h : p ≠ .log) : Spares p clearLog := by unfold NuDB.clearLog; spares

theorem Spares.recoverWrite {kh : KeyHeader} {d n : Nat} {b : Bkt} (h : p ≠ .key) : Spares p (recoverWrite kh d n b) := by
  unfold NuDB.recoverWrite
  repeat' first | exact Spares.fail _ | split
  spares

theorem Spares.recoverStep {kh : KeyHeader} {d : Nat} {b : Bkt} {r : Reader} (h : p ≠ .key) :
    Spares p (recoverStep c kh d b r) := by
  unfold NuDB.recoverStep
  repeat' first
    | exact Spares.ret _ | exact Spares.fail _ | exact Spares.lift _ | exact Spares.recoverWrite h
    | exact Spares.attempt Spares.prepare | exact Spares.attempt Spares.readHead
    | exact Spares.attempt Spares.readBody | apply Spares.bind | intro _ | split

theorem Spares.recoverLoop {kh : KeyHeader} {d : Nat} (h : p ≠ .key) :
    ∀ (fuel : Nat) (b : Bkt) (r : Reader), Spares p (recoverLoop c kh d fuel b r) := by
  intro fuel
  induction fuel with
  | zero => intro b r; exact Spares.raise _
  | succ n ih =>
    intro b r
    unfold NuDB.recoverLoop
    apply Spares.bind (Spares.recoverStep h)
    intro a
    split
    · exact Spares.ret _
    · exact ih _ _

theorem Spares.replayLog {dh : DatHeader} {lh : LogHeader} {a b : Nat} (h : p ≠ .key) :
    Spares p (replayLog c dh lh a b) := by
  unfold NuDB.replayLog
  apply Spares.bind Spares.readKeyHeader; intro _
  repeat' first
    | exact Spares.check _ | exact Spares.lift _ | exact Spares.recoverLoop h _ _ _ | apply Spares.bind | intro _

end

end NuDB
