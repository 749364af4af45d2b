import Verif.Proof.Frame
import Verif.Proof.File
import Verif.Spec.History
/- Programs see the current contents of files only: it makes no difference to an undisturbed or a failing run
which changes have been synced. -/
namespace NuDB

/-- The same files with the same current contents. -/
def CurEq (fs fs' : Fs) : Prop := ∀ p, (fs p).map FileSt.cur = (fs' p).map FileSt.cur

/-- Two worlds that look the same to a program. -/
structure LooksAlike (w w' : World) : Prop where
  fs : CurEq w.fs w'.fs
  clock : w.clock = w'.clock
  out : w.out = w'.out

/-- `m` does not see what has been synced. -/
structure Blind (m : M α) : Prop where
  go : ∀ σ w w', LooksAlike w w' → (m σ w).1 = (m σ w').1 ∧ LooksAlike (m σ w).2 (m σ w').2

section
variable {p q : Path} {α β : Type} {fs fs' : Fs}

theorem curEq_none (h : CurEq fs fs') : fs p = none ↔ fs' p = none := by
  have := h p
  cases h1 : fs p <;> cases h2 : fs' p <;> simp_all

theorem curEq_some (h : CurEq fs fs') {f : FileSt} (hf : fs p = some f) : ∃ f', fs' p = some f' ∧ f.cur = f'.cur := by
  have := h p
  rw [hf] at this
  cases h2 : fs' p with
  | none => rw [h2] at this; cases this
  | some f' => rw [h2] at this; exact ⟨f', rfl, by simpa using this⟩

theorem curEq_set (h : CurEq fs fs') {x y : Option FileSt} (hx : x.map FileSt.cur = y.map FileSt.cur) :
    CurEq (fs.set p x) (fs'.set p y) := by
  intro q
  unfold Fs.set
  split
  · exact hx
  · exact h q

theorem Blind.ret (a : α) : Blind (M.ret a) := ⟨fun _ _ _ h => ⟨rfl, h⟩⟩
theorem Blind.pure (a : α) : Blind (Pure.pure a : M α) := ⟨fun _ _ _ h => ⟨rfl, h⟩⟩
theorem Blind.raise (x : Exc) : Blind (M.raise x : M α) := ⟨fun _ _ _ h => ⟨rfl, h⟩⟩
theorem Blind.fail (e : Err) : Blind (M.fail e : M α) := ⟨fun _ _ _ h => ⟨rfl, h⟩⟩
theorem Blind.lift (r : Res α) : Blind (M.lift r) := ⟨fun _ _ _ h => ⟨rfl, h⟩⟩
theorem Blind.check (r : Except Err α) : Blind (M.check r) := by
  refine ⟨fun σ w w' h => ?_⟩; unfold M.check; split <;> exact ⟨rfl, h⟩
theorem Blind.emit (e : Event) : Blind (NuDB.emit e) :=
  ⟨fun _ _ _ h => ⟨rfl, h.fs, h.clock, by simp only [NuDB.emit, h.out]⟩⟩
theorem Blind.history : Blind NuDB.history := ⟨fun _ _ _ h => ⟨by simp only [NuDB.history, h.out], h⟩⟩
theorem Blind.lookupFuel : Blind NuDB.lookupFuel := by
  refine ⟨fun _ w w' h => ⟨?_, h⟩⟩
  unfold NuDB.lookupFuel
  cases h1 : w.fs .dat with
  | none => rw [(curEq_none h.fs).mp h1]
  | some f =>
    obtain ⟨f', h2, h3⟩ := curEq_some h.fs h1
    rw [h2]; simp only [h3]

theorem Blind.bind {m : M α} {k : α → M β} (h : Blind m) (hk : ∀ a, Blind (k a)) : Blind (m >>= k) := by
  refine ⟨fun σ w w' hw => ?_⟩
  show (M.bind m k σ w).1 = (M.bind m k σ w').1 ∧ _
  have := h.go σ w w' hw
  show (M.bind m k σ w).1 = (M.bind m k σ w').1 ∧ LooksAlike (M.bind m k σ w).2 (M.bind m k σ w').2
  unfold M.bind
  cases e1 : m σ w with
  | mk r1 u1 =>
    cases e2 : m σ w' with
    | mk r2 u2 =>
      rw [e1, e2] at this
      obtain ⟨h1, h2⟩ := this
      simp only at h1 h2
      subst h1
      cases r1 with
      | ok a => exact (hk a).go σ u1 u2 h2
      | error x => exact ⟨rfl, h2⟩

theorem Blind.attempt {m : M α} (h : Blind m) : Blind (M.attempt m) := by
  refine ⟨fun σ w w' hw => ?_⟩
  have := h.go σ w w' hw
  unfold M.attempt
  cases e1 : m σ w with
  | mk r1 u1 =>
    cases e2 : m σ w' with
    | mk r2 u2 =>
      rw [e1, e2] at this
      obtain ⟨h1, h2⟩ := this
      simp only at h1 h2
      subst h1
      cases r1 with
      | ok a => exact ⟨rfl, h2⟩
      | error x => cases x <;> exact ⟨rfl, h2⟩

theorem Blind.fileOp {ok : Fs → Except Exc α × Fs} {part : Fs → Nat → Fs}
    (h1 : ∀ fs fs', CurEq fs fs' → (ok fs).1 = (ok fs').1 ∧ CurEq (ok fs).2 (ok fs').2)
    (h2 : ∀ fs fs' k, CurEq fs fs' → CurEq (part fs k) (part fs' k)) : Blind (fileOp ok part) := by
  refine ⟨fun σ w w' hw => ?_⟩
  unfold NuDB.fileOp
  rw [← hw.clock]
  split
  · exact ⟨(h1 _ _ hw.fs).1, (h1 _ _ hw.fs).2, rfl, hw.out⟩
  · exact ⟨rfl, h2 _ _ _ hw.fs, rfl, hw.out⟩
  · exact ⟨rfl, h2 _ _ _ hw.fs, rfl, hw.out⟩

/-- cases on the file `q` in both worlds -/
theorem curEq_cases (h : CurEq fs fs') (q : Path) :
    (fs q = none ∧ fs' q = none) ∨ ∃ f f', fs q = some f ∧ fs' q = some f' ∧ f.cur = f'.cur := by
  cases h1 : fs q with
  | none => exact .inl ⟨rfl, (curEq_none h).mp h1⟩
  | some f =>
    obtain ⟨f', h2, h3⟩ := curEq_some h h1
    exact .inr ⟨f, f', rfl, h2, h3⟩

theorem cur_push_eq {f f' : FileSt} (h : f.cur = f'.cur) (op : POp) :
    (some (f.push op)).map FileSt.cur = (some (f'.push op)).map FileSt.cur := by
  simp only [Option.map_some, cur_push, h]

theorem Blind.fOpen : Blind (fOpen q) := by
  apply Blind.fileOp
  · intro fs fs' h
    rcases curEq_cases h q with ⟨a, b⟩ | ⟨f, f', a, b, e⟩ <;> simp only [a, b] <;> exact ⟨trivial, h⟩
  · intro fs fs' k h; exact h

theorem Blind.fSize : Blind (fSize q) := by
  apply Blind.fileOp
  · intro fs fs' h
    rcases curEq_cases h q with ⟨a, b⟩ | ⟨f, f', a, b, e⟩
    · simp only [a, b]; exact ⟨trivial, h⟩
    · simp only [a, b, e]; exact ⟨trivial, h⟩
  · intro fs fs' k h; exact h

theorem Blind.fRead {o n : Nat} : Blind (fRead q o n) := by
  apply Blind.fileOp
  · intro fs fs' h
    rcases curEq_cases h q with ⟨a, b⟩ | ⟨f, f', a, b, e⟩
    · simp only [a, b]; exact ⟨trivial, h⟩
    · simp only [a, b, e]; split <;> exact ⟨rfl, h⟩
  · intro fs fs' k h; exact h

theorem Blind.fCreate : Blind (fCreate q) := by
  apply Blind.fileOp
  · intro fs fs' h
    rcases curEq_cases h q with ⟨a, b⟩ | ⟨f, f', a, b, e⟩
    · simp only [a, b]; exact ⟨trivial, curEq_set h rfl⟩
    · simp only [a, b]; exact ⟨trivial, h⟩
  · intro fs fs' k h
    rcases curEq_cases h q with ⟨a, b⟩ | ⟨f, f', a, b, e⟩
    · simp only [a, b]; split
      · exact curEq_set h rfl
      · exact h
    · simp only [a, b]; simpa using h

theorem Blind.fErase : Blind (fErase q) := by
  apply Blind.fileOp
  · intro fs fs' h
    rcases curEq_cases h q with ⟨a, b⟩ | ⟨f, f', a, b, e⟩
    · simp only [a, b]; exact ⟨trivial, h⟩
    · simp only [a, b]; exact ⟨trivial, curEq_set h rfl⟩
  · intro fs fs' k h; exact h

theorem Blind.fWrite {o : Nat} {bs : Bytes} : Blind (fWrite q o bs) := by
  apply Blind.fileOp
  · intro fs fs' h
    rcases curEq_cases h q with ⟨a, b⟩ | ⟨f, f', a, b, e⟩
    · simp only [a, b]; exact ⟨trivial, h⟩
    · simp only [a, b]; exact ⟨trivial, curEq_set h (cur_push_eq e _)⟩
  · intro fs fs' k h
    rcases curEq_cases h q with ⟨a, b⟩ | ⟨f, f', a, b, e⟩
    · simp only [a, b]; exact h
    · simp only [a, b]; exact curEq_set h (cur_push_eq e _)

theorem Blind.fAppend {o : Nat} {bs : Bytes} : Blind (fAppend q o bs) := by
  apply Blind.fileOp
  · intro fs fs' h
    rcases curEq_cases h q with ⟨a, b⟩ | ⟨f, f', a, b, e⟩
    · simp only [a, b]; exact ⟨trivial, h⟩
    · simp only [a, b, e]; split
      · exact ⟨rfl, curEq_set h (cur_push_eq e _)⟩
      · exact ⟨rfl, h⟩
  · intro fs fs' k h
    rcases curEq_cases h q with ⟨a, b⟩ | ⟨f, f', a, b, e⟩
    · simp only [a, b]; exact h
    · simp only [a, b, e]; split
      · exact curEq_set h (cur_push_eq e _)
      · exact h

theorem Blind.fSync : Blind (fSync q) := by
  apply Blind.fileOp
  · intro fs fs' h
    rcases curEq_cases h q with ⟨a, b⟩ | ⟨f, f', a, b, e⟩
    · simp only [a, b]; exact ⟨trivial, h⟩
    · simp only [a, b]; exact ⟨trivial, curEq_set h (by simp only [synced_eq, Option.map_some, cur_clean, e])⟩
  · intro fs fs' k h; exact h

theorem Blind.fTrunc {n : Nat} : Blind (fTrunc q n) := by
  apply Blind.fileOp
  · intro fs fs' h
    rcases curEq_cases h q with ⟨a, b⟩ | ⟨f, f', a, b, e⟩
    · simp only [a, b]; exact ⟨trivial, h⟩
    · simp only [a, b]; exact ⟨trivial, curEq_set h (cur_push_eq e _)⟩
  · intro fs fs' k h; exact h

end

/-- Apply the rules above. -/
macro "blind" : tactic => `(tactic| repeat' (first
  | assumption
  | exact Blind.ret _ | exact Blind.pure _ | exact Blind.raise _ | exact Blind.fail _ | exact Blind.lift _
  | exact Blind.check _ | exact Blind.emit _ | exact Blind.history | exact Blind.lookupFuel
  | exact Blind.fOpen | exact Blind.fSize | exact Blind.fRead | exact Blind.fCreate | exact Blind.fErase
  | exact Blind.fWrite | exact Blind.fAppend | exact Blind.fSync | exact Blind.fTrunc
  | apply Blind.bind | apply Blind.attempt | intro _ | split))

section
variable {q : Path} {c : Cfg}

theorem Blind.readDatHeader : Blind readDatHeader := by unfold NuDB.readDatHeader; blind
theorem Blind.readKeyHeader : Blind readKeyHeader := by unfold NuDB.readKeyHeader; blind
theorem Blind.readLogHeader : Blind readLogHeader := by unfold NuDB.readLogHeader; blind
theorem Blind.eraseFile : Blind (eraseFile q) := by unfold NuDB.eraseFile; blind
theorem Blind.readFile {b : Bkt} {o : Nat} : Blind (b.readFile q o) := by unfold Bkt.readFile; blind
theorem Blind.writeFile {b : Bkt} {o : Nat} : Blind (b.writeFile q o) := by unfold Bkt.writeFile; blind
theorem Blind.prepare {r : Reader} {n : Nat} : Blind (r.prepare c n) := by unfold Reader.prepare; blind
theorem Blind.readHead {b : Bkt} {r : Reader} : Blind (b.readHead c r) := by
  unfold Bkt.readHead; apply Blind.bind Blind.prepare; blind
theorem Blind.readBody {b : Bkt} {r : Reader} : Blind (b.readBody c r) := by
  unfold Bkt.readBody; apply Blind.bind Blind.prepare; blind
theorem Blind.clearLog : Blind clearLog := by unfold NuDB.clearLog; blind
theorem Blind.truncFiles {lh : LogHeader} : Blind (truncFiles lh) := by
  have := Blind.clearLog
  unfold NuDB.truncFiles; blind
theorem Blind.recoverWrite {kh : KeyHeader} {d n : Nat} {b : Bkt} : Blind (recoverWrite kh d n b) := by
  unfold NuDB.recoverWrite
  repeat' first | exact Blind.fail _ | split
  blind

theorem Blind.recoverStep {kh : KeyHeader} {d : Nat} {b : Bkt} {r : Reader} : Blind (recoverStep c kh d b r) := by
  unfold NuDB.recoverStep
  repeat' first
    | exact Blind.ret _ | exact Blind.fail _ | exact Blind.lift _ | exact Blind.recoverWrite
    | exact Blind.attempt Blind.prepare | exact Blind.attempt Blind.readHead
    | exact Blind.attempt Blind.readBody | apply Blind.bind | intro _ | split

theorem Blind.recoverLoop {kh : KeyHeader} {d : Nat} :
    ∀ (fuel : Nat) (b : Bkt) (r : Reader), Blind (recoverLoop c kh d fuel b r) := by
  intro fuel
  induction fuel with
  | zero => intro b r; exact Blind.raise _
  | succ n ih =>
    intro b r
    unfold NuDB.recoverLoop
    apply Blind.bind Blind.recoverStep
    intro a
    split
    · exact Blind.ret _
    · exact ih _ _

theorem Blind.replayLog {dh : DatHeader} {lh : LogHeader} {a b : Nat} : Blind (replayLog c dh lh a b) := by
  unfold NuDB.replayLog
  apply Blind.bind Blind.readKeyHeader; intro _
  repeat' first
    | exact Blind.check _ | exact Blind.lift _ | exact Blind.recoverLoop _ _ _ | apply Blind.bind | intro _

theorem Blind.recover : Blind (recover c) := by
  unfold NuDB.recover
  repeat' first
    | exact Blind.readDatHeader | exact Blind.eraseFile | exact Blind.clearLog | exact Blind.truncFiles
    | exact Blind.replayLog | exact Blind.attempt Blind.readLogHeader | exact Blind.fOpen | exact Blind.fSize
    | exact Blind.fErase | exact Blind.fail _ | exact Blind.check _ | exact Blind.ret _
    | exact Blind.attempt Blind.fOpen | apply Blind.bind | intro _ | split

theorem Blind.openStore : Blind (openStore c) := by
  unfold NuDB.openStore
  apply Blind.bind Blind.recover; intro _
  repeat' first
    | exact Blind.readDatHeader | exact Blind.readKeyHeader | exact Blind.fOpen | exact Blind.fCreate
    | exact Blind.check _ | exact Blind.fail _ | exact Blind.ret _ | apply Blind.bind | intro _ | split

theorem Blind.fetchScan {n h : Nat} {key : Bytes} {b : Bkt} :
    ∀ fuel i, Blind (fetchScan n h key b fuel i) := by
  intro fuel
  induction fuel with
  | zero => intro i; exact Blind.raise _
  | succ n ih =>
    intro i
    unfold NuDB.fetchScan
    split
    · apply Blind.bind (Blind.lift _); intro _
      split
      · exact Blind.ret _
      · apply Blind.bind Blind.fRead; intro _
        split
        · exact Blind.ret _
        · exact ih _
    · exact Blind.ret _

theorem Blind.fetchBucket {kh : KeyHeader} {h : Nat} {key : Bytes} :
    ∀ fuel b, Blind (fetchBucket c kh h key fuel b) := by
  intro fuel
  induction fuel with
  | zero => intro i; exact Blind.raise _
  | succ n ih =>
    intro b
    unfold NuDB.fetchBucket
    apply Blind.bind (Blind.lift _); intro _
    apply Blind.bind (Blind.fetchScan _ _); intro _
    split
    · exact Blind.ret _
    · split
      · exact Blind.fail _
      · apply Blind.bind (Blind.lift _); intro _
        apply Blind.bind Blind.readFile; intro _
        exact ih _

theorem Blind.fetch {s : Store} {key : Bytes} : Blind (fetch c s key) := by
  unfold NuDB.fetch
  repeat' first
    | exact Blind.fetchBucket _ _ | exact Blind.lift _ | exact Blind.fail _ | exact Blind.ret _
    | exact Blind.lookupFuel | exact Blind.readFile | apply Blind.bind | intro _ | split

end

open Spec in
/-- Lookups do not depend on what has been synced. -/
theorem CurEq.answers {c : Cfg} {n : Nat} {m : Map} {fs fs' : Fs} (h : CurEq fs fs') (ha : Answers c n fs m) :
    Answers c n fs' m := by
  obtain ⟨w₁, s, w₂, h1, h2, h3⟩ := ha
  have g1 := (Blind.recover (c := c)).go calm ⟨fs, 0, []⟩ ⟨fs', 0, []⟩ ⟨h, rfl, rfl⟩
  rw [h1] at g1
  obtain ⟨e1, a1⟩ := g1
  have g2 := (Blind.openStore (c := c)).go calm w₁ (NuDB.recover c calm ⟨fs', 0, []⟩).2 a1
  rw [h2] at g2
  obtain ⟨e2, a2⟩ := g2
  refine ⟨(NuDB.recover c calm ⟨fs', 0, []⟩).2, s, (NuDB.openStore c calm (NuDB.recover c calm ⟨fs', 0, []⟩).2).2, ?_, ?_, ?_⟩
  · exact Prod.ext e1.symm rfl
  · exact Prod.ext e2.symm rfl
  · intro w hw k hk
    have g3 := (Blind.fetch (c := c) (s := s) (key := k)).go calm ⟨w₂.fs, w.clock, w.out⟩ w ⟨hw ▸ a2.fs, rfl, rfl⟩
    rw [← g3.1]
    exact h3 ⟨w₂.fs, w.clock, w.out⟩ rfl k hk

end NuDB
