import Verif.Proof.Native
import Verif.Proof.Prog
/-
C55: signals and partial transfers are invisible. The member functions of `posix_file` and `win32_file`
that transfer data consist of several system calls, but behave as the single operations of `Model/File`
that all other properties are about. C56: the reported reason of a failure.
-/
namespace NuDB

open Spec

section
variable {p : Path} {g g' f : FileSt} {off n : Nat} {bs : Bytes} {rs rest : List Reply} {rd rd' : List (Reply × Bytes)}
  {r : Res Unit} {rb : Res Bytes} {F : Bytes}

/-- C55: `posix_file::read`. Meanwhile other threads may change other places of the file. -/
theorem C55_read (hc : Covered g f) (hs : ∀ x ∈ rd, slice x.2 off n = slice g.cur off n)
    (h : posixRead rd off n [] = .some (rb, rd')) : Single p (fRead p off n) f rb g := by
  rw [posixRead_eq] at h
  exact single_read hc (by simpa using readLoop_result (by decide) hs h)

/-- C55: `posix_file::write`. -/
theorem C55_write (hc : Covered g f) (h : posixWrite false rs g off bs = .some (r, g', rest)) :
    Single p (fWrite p off bs) f r g' := by
  rw [posixWrite_eq] at h
  exact single_write (by
    simpa using writeLoop_result (f := f) (a := []) (fun h => by cases h) rfl (hc.trans (covered_empty ..)) h)

/-- C55: `posix_file::write` on a file opened for appending, at the end of the file. -/
theorem C55_append (hc : Covered g f) (ho : off = g.cur.length) (h : posixWrite true rs g off bs = .some (r, g', rest)) :
    Single p (fAppend p off bs) f r g' := by
  rw [posixWrite_eq] at h
  rw [hc.reads] at ho
  exact single_append ho (by
    simpa using writeLoop_result (f := f) (a := []) (fun _ => ho) rfl (hc.trans (covered_empty ..)) h)

/-- C55: `posix_file::sync`. -/
theorem C55_sync (hc : Covered g f) (h : posixSync rs g = .some (r, g', rest)) : Single p (fSync p) f r g' := by
  rcases posixSync_result h with ⟨rfl, rfl⟩ | ⟨rfl | rfl, rfl⟩
  · exact ⟨.none, _, hc.synced, fun σ w hσ hw => by simp only [fSync, fileOp, hσ, hw]⟩
  · exact ⟨.fail 0, _, hc, fun σ w hσ hw => by simp only [fSync, fileOp, hσ, set_same hw]⟩
  · exact ⟨.crash 0, _, hc, fun σ w hσ hw => by simp only [fSync, fileOp, hσ, set_same hw]⟩

/-- C55: `posix_file::trunc`. -/
theorem C55_trunc (hc : Covered g f) (h : posixTrunc rs g n = .some (r, g', rest)) : Single p (fTrunc p n) f r g' := by
  rcases posixTrunc_result h with ⟨rfl, rfl⟩ | ⟨rfl | rfl, rfl⟩
  · exact ⟨.none, _, hc.trunc n, fun σ w hσ hw => by simp only [fTrunc, fileOp, hσ, hw]⟩
  · exact ⟨.fail 0, _, hc, fun σ w hσ hw => by simp only [fTrunc, fileOp, hσ, set_same hw]⟩
  · exact ⟨.crash 0, _, hc, fun σ w hσ hw => by simp only [fTrunc, fileOp, hσ, set_same hw]⟩

/-- C55: `posix_file::size`. -/
theorem C55_size {rn : Res Nat} (hc : Covered g f) (h : posixSize rs g = .some (rn, rest)) : Single p (fSize p) f rn g := by
  unfold posixSize at h
  split at h
  · cases h
  · cases h; exact ⟨.fail 0, _, hc, fun σ w hσ hw => by simp only [fSize, fileOp, hσ, set_same hw]⟩
  · cases h; exact ⟨.fail 0, _, hc, fun σ w hσ hw => by simp only [fSize, fileOp, hσ, set_same hw]⟩
  · cases h; exact ⟨.crash 0, _, hc, fun σ w hσ hw => by simp only [fSize, fileOp, hσ, set_same hw]⟩
  · cases h; exact ⟨.none, _, hc, fun σ w hσ hw => by simp only [fSize, fileOp, hσ, hw, hc.reads, set_same hw]⟩

/-- C55: `win32_file::read`. -/
theorem C55_win32_read (hc : Covered g f) (hs : ∀ x ∈ rd, slice x.2 off n = slice g.cur off n)
    (h : win32Read rd off n [] = .some (rb, rd')) : Single p (fRead p off n) f rb g := by
  rw [win32Read_eq] at h
  exact single_read hc (by simpa using readLoop_result (by decide) hs h)

/-- C55: `win32_file::write`. -/
theorem C55_win32_write (hc : Covered g f) (h : win32Write rs g off bs = .some (r, g', rest)) :
    Single p (fWrite p off bs) f r g' := by
  rw [win32Write_eq] at h
  exact single_write (by
    simpa using writeLoop_result (f := f) (a := []) (fun h => by cases h) rfl (hc.trans (covered_empty ..)) h)

/-- C55: if system calls are only interrupted or transfer less than requested, nothing is reported but the end
of the file. -/
theorem C55_read_undisturbed (hs : ∀ x ∈ rd, slice x.2 off n = slice F off n)
    (hr : ∀ x ∈ rd, (∃ k, x.1 = .some k) ∨ x.1 = .intr) (h : posixRead rd off n [] = .some (rb, rd')) :
    rb = if n = 0 ∨ off + n ≤ F.length then .ok (slice F off n) else .error (.err .short_read) := by
  rw [posixRead_eq] at h
  have h1 := readLoop_calm (by simpa using hr) h
  rcases readLoop_result (by decide) hs h with e | e | e
  · exact absurd e h1.1
  · exact absurd e h1.2
  · simpa using e

/-- C55: likewise for writing: all bytes are written. -/
theorem C55_write_undisturbed {append : Bool} (ho : append = true → off = g.cur.length)
    (hr : ∀ x ∈ rs, (∃ k, x = .some k) ∨ x = .intr) (h : posixWrite append rs g off bs = .some (r, g', rest)) :
    r = .ok () ∧ g'.cur = writeAt g.cur off bs := by
  rw [posixWrite_eq] at h
  rcases writeLoop_result (f := g) (a := []) ho rfl (covered_empty ..) h with ⟨e, hc⟩ | ⟨e, _⟩
  · exact ⟨e, by rw [hc.reads, cur_push]; rfl⟩
  · exact absurd e (by
      have := writeLoop_calm hr ho (a := []) rfl (covered_empty ..) h
      rw [this]; simp)

/-- C55: reading comes to an end as soon as enough system calls are not interrupted. -/
theorem C55_read_ends (h : n ≤ (rd.filter (fun x => x.1 != .intr)).length) : posixRead rd off n [] ≠ .none := by
  rw [posixRead_eq]; exact readLoop_ends h

/-- C55: writing comes to an end as soon as enough system calls transfer something. -/
theorem C55_write_ends {append : Bool} (h : bs.length ≤ (rs.filter Reply.advances).length) :
    posixWrite append rs g off bs ≠ .none := by
  rw [posixWrite_eq]; exact writeLoop_ends (by decide) h

/-- But if the system reports that nothing was transferred, `posix_file::write` tries for ever ... -/
theorem C55_stuck {append : Bool} (b : UInt8) (k : Nat) (ho : append = true → off = g.cur.length) :
    posixWrite append (List.replicate k (.some 0)) g off (b :: bs) = .none := by
  induction k generalizing g with
  | zero => rfl
  | succ k ih =>
    rw [List.replicate_succ]
    have hp : pwrite append g off ((b :: bs).take 0) = .ok (g.push (.write off [])) := by
      unfold pwrite
      rw [if_neg (fun h => h.2 (ho h.1))]
      rfl
    simp only [posixWrite, Nat.zero_min, hp, Nat.add_zero, List.drop_zero]
    refine ih (fun h => ?_)
    rw [cur_push]
    simpa [POp.apply] using ho h

/-- ... whereas `win32_file::write` reports an error. -/
theorem C55_win32_zero (b : UInt8) : win32Write (.some 0 :: rs) g off (b :: bs) = .some (.error (.err .io), g, rs) := by
  simp [win32Write]

private theorem program_covered {α : Type} (q : Prog α) : ∀ {gs gs' fs : Fs} {rr : Res α} {rs rest : List Reply},
    AllCovered gs fs → q.posix gs rs = .some (rr, gs', rest) → Runs q fs rr gs' := by
  have hp : ∀ {gs fs : Fs} (p : Path), AllCovered gs fs → (∃ g f, gs p = some g ∧ fs p = some f ∧ Covered g f) ∨
      (gs p = none ∧ fs p = none) := fun p h => (h p).symm
  induction q with
  | ret a =>
    intro gs gs' fs rr rs rest hc h
    cases h
    exact fun _ _ => ⟨calm, .inr ⟨rfl, hc⟩⟩
  | raise x =>
    intro gs gs' fs rr rs rest hc h
    cases h
    exact fun _ _ => ⟨calm, .inr ⟨rfl, hc⟩⟩
  | size p k ih =>
    intro gs gs' fs rr rs rest hc h
    rcases hp p hc with ⟨g, f, hg, hf, hcf⟩ | ⟨hg, hf⟩
    · simp only [Prog.posix, hg] at h
      split at h
      · cases h
      · rename_i x rs' e
        cases h
        rw [← set_same hg]
        exact runs_error rfl hc hf (C55_size hcf e)
      · rename_i n rs' e
        exact runs_ok rfl hc hf (C55_size hcf e) (fun fs' hc' => ih n (by rwa [set_same hg] at hc') h)
    · exact runs_ub (fun w hw => by simp [Prog.toM, M.bind, fSize, fileOp, calm, hw, hf])
  | read p off n k ih =>
    intro gs gs' fs rr rs rest hc h
    rcases hp p hc with ⟨g, f, hg, hf, hcf⟩ | ⟨hg, hf⟩
    · simp only [Prog.posix, hg] at h
      have hs : ∀ x ∈ rs.map (fun y => (y, g.cur)), slice x.2 off n = slice g.cur off n := by
        intro x hx
        obtain ⟨y, -, rfl⟩ := List.mem_map.mp hx
        rfl
      split at h
      · cases h
      · rename_i x rs' e
        cases h
        rw [← set_same hg]
        exact runs_error rfl hc hf (C55_read hcf hs e)
      · rename_i b rs' e
        exact runs_ok rfl hc hf (C55_read hcf hs e) (fun fs' hc' => ih b (by rwa [set_same hg] at hc') h)
    · exact runs_ub (fun w hw => by simp [Prog.toM, M.bind, fRead, fileOp, calm, hw, hf])
  | write p off bs k ih =>
    intro gs gs' fs rr rs rest hc h
    rcases hp p hc with ⟨g, f, hg, hf, hcf⟩ | ⟨hg, hf⟩
    · simp only [Prog.posix, hg, Prog.cont] at h
      split at h
      · cases h
      · rename_i x g' rs' e
        cases h
        exact runs_error (k := fun _ => k) rfl hc hf (C55_write hcf e)
      · rename_i g' rs' e
        exact runs_ok (k := fun _ => k) rfl hc hf (C55_write hcf e) (fun fs' hc' => ih hc' h)
    · exact runs_ub (fun w hw => by simp [Prog.toM, M.bind, fWrite, fileOp, calm, hw, hf])
  | append p off bs k ih =>
    intro gs gs' fs rr rs rest hc h
    rcases hp p hc with ⟨g, f, hg, hf, hcf⟩ | ⟨hg, hf⟩
    · by_cases ho : off = g.cur.length
      · simp only [Prog.posix, hg, Prog.cont] at h
        split at h
        · cases h
        · rename_i x g' rs' e
          cases h
          exact runs_error (k := fun _ => k) rfl hc hf (C55_append hcf ho e)
        · rename_i g' rs' e
          exact runs_ok (k := fun _ => k) rfl hc hf (C55_append hcf ho e) (fun fs' hc' => ih hc' h)
      · rw [hcf.reads] at ho
        exact runs_ub (fun w hw => by simp [Prog.toM, M.bind, fAppend, fileOp, calm, hw, hf, ho])
    · exact runs_ub (fun w hw => by simp [Prog.toM, M.bind, fAppend, fileOp, calm, hw, hf])
  | sync p k ih =>
    intro gs gs' fs rr rs rest hc h
    rcases hp p hc with ⟨g, f, hg, hf, hcf⟩ | ⟨hg, hf⟩
    · simp only [Prog.posix, hg, Prog.cont] at h
      split at h
      · cases h
      · rename_i x g' rs' e
        cases h
        exact runs_error (k := fun _ => k) rfl hc hf (C55_sync hcf e)
      · rename_i g' rs' e
        exact runs_ok (k := fun _ => k) rfl hc hf (C55_sync hcf e) (fun fs' hc' => ih hc' h)
    · exact runs_ub (fun w hw => by simp [Prog.toM, M.bind, fSync, fileOp, calm, hw, hf])
  | trunc p n k ih =>
    intro gs gs' fs rr rs rest hc h
    rcases hp p hc with ⟨g, f, hg, hf, hcf⟩ | ⟨hg, hf⟩
    · simp only [Prog.posix, hg, Prog.cont] at h
      split at h
      · cases h
      · rename_i x g' rs' e
        cases h
        exact runs_error (k := fun _ => k) rfl hc hf (C55_trunc hcf e)
      · rename_i g' rs' e
        exact runs_ok (k := fun _ => k) rfl hc hf (C55_trunc hcf e) (fun fs' hc' => ih hc' h)
    · exact runs_ub (fun w hw => by simp [Prog.toM, M.bind, fTrunc, fileOp, calm, hw, hf])

/-- C55: any program that uses files through `posix_file`: whatever the system calls do, it has a result
that it may have with the single operations of `Model/File`, and leaves files that are covered. (The
single operations classify an appending write elsewhere than at the end as undefined.) -/
theorem C55_program {α : Type} (q : Prog α) {gs gs' fs : Fs} {rr : Res α} (hc : AllCovered gs fs)
    (h : q.posix gs rs = .some (rr, gs', rest)) :
    ∃ (σ : Schedule) (r' : Res α) (w : World), q.toM σ ⟨fs, 0, []⟩ = (r', w) ∧
      (r' = .error .ub ∨ (r' = rr ∧ AllCovered gs' w.fs)) := by
  obtain ⟨σ, h⟩ := program_covered q hc h 0 []
  exact ⟨σ, _, _, rfl, h⟩

/-- C56, the true part: what `open` and `create` report is the reason, or some other error of the system,
provided that `errno` does not happen to hold the number of one of the two errors that callers
distinguish. -/
theorem C56_open_partial {errno : Option Err} {fs : Fs} (he : errno = none ∨ errno = some .io)
    (h : posixOpen errno fs p rs = .some (r, rest)) :
    ∃ fault, ∀ (σ : Schedule) (w : World), σ w.clock = fault → w.fs = fs → fOpen p σ w = (r, ⟨fs, w.clock + 1, w.out⟩) := by
  have hok : ∀ f, fs p = some f → r = .ok () → ∃ fault, ∀ (σ : Schedule) (w : World), σ w.clock = fault → w.fs = fs →
      fOpen p σ w = (r, ⟨fs, w.clock + 1, w.out⟩) := by
    rintro f hf rfl
    exact ⟨.none, fun σ w h1 h2 => by simp only [fOpen, fileOp, h1, h2, hf]⟩
  have hio : r = .error (.err .io) → ∃ fault, ∀ (σ : Schedule) (w : World), σ w.clock = fault → w.fs = fs →
      fOpen p σ w = (r, ⟨fs, w.clock + 1, w.out⟩) := by
    rintro rfl
    exact ⟨.fail 0, fun σ w h1 h2 => by simp only [fOpen, fileOp, h1, h2]⟩
  have hcr : r = .error .crash → ∃ fault, ∀ (σ : Schedule) (w : World), σ w.clock = fault → w.fs = fs →
      fOpen p σ w = (r, ⟨fs, w.clock + 1, w.out⟩) := by
    rintro rfl
    exact ⟨.crash 0, fun σ w h1 h2 => by simp only [fOpen, fileOp, h1, h2]⟩
  have hle : ∀ f, fs p = some f → r = lastErr errno → ∃ fault, ∀ (σ : Schedule) (w : World), σ w.clock = fault → w.fs = fs →
      fOpen p σ w = (r, ⟨fs, w.clock + 1, w.out⟩) := by
    intro f hf e
    rcases he with rfl | rfl
    · exact hok f hf e
    · exact hio e
  cases rs with
  | nil => cases h
  | cons x rs =>
    cases x with
    | intr => cases h; exact hio rfl
    | fail => cases h; exact hio rfl
    | die => cases h; exact hcr rfl
    | some n =>
      simp only [posixOpen] at h
      cases hf : fs p with
      | none =>
        rw [hf] at h
        cases h
        exact ⟨.none, fun σ w h1 h2 => by simp only [fOpen, fileOp, h1, h2, hf]⟩
      | some f =>
        rw [hf] at h
        cases rs with
        | nil => cases h
        | cons y rs =>
          cases y with
          | intr => cases h; exact hle f hf rfl
          | fail => cases h; exact hle f hf rfl
          | die => cases h; exact hcr rfl
          | some => cases h; exact hok f hf rfl

/-- C56 for `create`. -/
theorem C56_create_partial {errno : Option Err} {fs fs' : Fs} (he : errno = none ∨ errno = some .io)
    (h : posixCreate errno fs p rs = .some (r, fs', rest)) :
    ∃ fault, ∀ (σ : Schedule) (w : World), σ w.clock = fault → w.fs = fs → fCreate p σ w = (r, ⟨fs', w.clock + 1, w.out⟩) := by
  cases rs with
  | nil => cases h
  | cons x rs =>
    cases x with
    | intr => cases h; exact ⟨.fail 0, fun σ w h1 h2 => by simp [fCreate, fileOp, h1, h2]⟩
    | fail => cases h; exact ⟨.fail 0, fun σ w h1 h2 => by simp [fCreate, fileOp, h1, h2]⟩
    | die => cases h; exact ⟨.crash 0, fun σ w h1 h2 => by simp [fCreate, fileOp, h1, h2]⟩
    | some n =>
      simp only [posixCreate] at h
      cases hf : fs p with
      | some f =>
        rw [hf] at h
        cases h
        exact ⟨.none, fun σ w h1 h2 => by simp only [fCreate, fileOp, h1, h2, hf]⟩
      | none =>
        rw [hf] at h
        have hle : r = lastErr errno → fs' = fs.set p (some (FileSt.clean [])) → ∃ fault, ∀ (σ : Schedule) (w : World),
            σ w.clock = fault → w.fs = fs → fCreate p σ w = (r, ⟨fs', w.clock + 1, w.out⟩) := by
          rintro rfl rfl
          rcases he with rfl | rfl
          · exact ⟨.none, fun σ w h1 h2 => by simp only [fCreate, fileOp, h1, h2, hf]; rfl⟩
          · exact ⟨.fail 1, fun σ w h1 h2 => by simp [fCreate, fileOp, h1, h2, hf, lastErr]⟩
        cases rs with
        | nil => cases h
        | cons y rs =>
          cases y with
          | intr => cases h; exact hle rfl rfl
          | fail => cases h; exact hle rfl rfl
          | die => cases h; exact ⟨.crash 1, fun σ w h1 h2 => by simp [fCreate, fileOp, h1, h2, hf]⟩
          | some => cases h; exact ⟨.none, fun σ w h1 h2 => by simp only [fCreate, fileOp, h1, h2, hf]⟩

/-- C56 is false in general: if an earlier system call left `ENOENT` in `errno` and `posix_fadvise` fails,
`open` reports that a file does not exist that it has just opened. -/
theorem C56_violated {fs : Fs} {n : Nat} (hf : fs p = some f) :
    posixOpen (some .no_such_file) fs p [.some n, .fail] = .some (.error (.err .no_such_file), []) := by
  simp [posixOpen, hf, lastErr]

/-- ... and if `errno` is zero the failure is not reported at all. -/
theorem C56_silent {fs : Fs} {n : Nat} (hf : fs p = some f) :
    posixOpen none fs p [.some n, .fail] = .some (.ok (), []) := by
  simp [posixOpen, hf, lastErr]

end

/- Examples. A file of six bytes; reading four at offset one takes four system calls, two of which are
interrupted, while another thread changes the last byte. -/
example : ∃ rd', posixRead [(.intr, [1, 2, 3, 4, 5, 6]), (.some 3, [1, 2, 3, 4, 5, 6]), (.intr, [1, 2, 3, 4, 5, 7]),
    (.some 9, [1, 2, 3, 4, 5, 7]), (.fail, [])] 1 4 [] = .some (.ok [2, 3, 4, 5], rd') := ⟨_, rfl⟩

example : ∀ x ∈ [(Reply.intr, [1, 2, 3, 4, 5, 6]), (Reply.some 3, [1, 2, 3, 4, 5, 6]), (.intr, [1, 2, 3, 4, 5, 7]),
    (.some 9, [1, 2, 3, 4, 5, 7])], slice x.2 1 4 = slice ((FileSt.clean [1, 2, 3, 4, 5, 6]).cur) 1 4 ∧
    ((∃ k, x.1 = .some k) ∨ x.1 = .intr) := by
  simp [slice, FileSt.cur, FileSt.clean]

/- Three bytes are written over the end, in two pieces; the third piece is cut short. -/
example : posixWrite false [.some 1, .intr, .some 1, .some 7] (.clean [1, 2]) 1 [7, 8, 9] =
    .some (.ok (), ⟨[1, 2], [.write 1 [7], .write 2 [8], .write 3 [9]]⟩, []) := rfl

example : posixWrite true [.some 1, .die 1] (.clean [1, 2]) 2 [7, 8, 9] =
    .some (.error .crash, ⟨[1, 2], [.write 2 [7], .write 3 [8]]⟩, []) := rfl

example : win32Write [.some 1, .some 7] (.clean [1, 2]) 1 [7, 8] =
    .some (.ok (), ⟨[1, 2], [.write 1 [7], .write 2 [8]]⟩, []) := rfl

example : win32Read [(.some 1, [1, 2]), (.some 1, [1, 2])] 1 2 [] = .some (.error (.err .short_read), []) := rfl

example : posixSync [.intr, .some 0] ⟨[], [.write 0 [1]]⟩ = .some (.ok (), .clean [1], []) := rfl

example : posixTrunc [.intr, .fail] (.clean [1]) 0 = .some (.error (.err .io), .clean [1], []) := rfl

example : posixSize [.some 0] (.clean [1]) = .some (.ok 1, []) := rfl

/- A program: append, sync, read back. -/
example : (Prog.append .log 0 [1, 2, 3] (.sync .log (.read .log 1 2 .ret))).posix (fun _ => some (.clean []))
    [.some 2, .intr, .some 2, .intr, .some 0, .some 1, .some 1] =
    .some (.ok [2, 3], Fs.set (Fs.set (fun _ => some (.clean [])) .log (some ⟨[], [.write 0 [1, 2], .write 2 [3]]⟩))
      .log (some (.clean [1, 2, 3])), []) := rfl

example : AllCovered (fun _ => some (.clean [])) (fun _ => some (.clean [])) :=
  fun _ => .inr ⟨_, _, rfl, rfl, .refl _⟩

example : posixOpen none (fun _ => some (.clean [])) .log [.some 0, .some 0] = .some (.ok (), []) := rfl

example : ∃ fs, posixCreate (some .io) (fun _ => none) .log [.some 0, .fail] = .some (.error (.err .io), fs, []) := ⟨_, rfl⟩

end NuDB
