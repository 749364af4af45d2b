import Verif.Model.Prog
/-
What it means for the tests to let every file operation of a program fail once.
-/
namespace NuDB.Spec

/-- The same files with the same contents (what is durable may differ). -/
def SameContents (a b : Fs) : Prop := ∀ p, (a p).map FileSt.cur = (b p).map FileSt.cur

/-- What follows an operation that works, on the files it leaves. -/
def afterOk (m : M β) (k : β → Fs → List Fs) (fs : Fs) : List Fs :=
  match m calm ⟨fs, 0, []⟩ with
  | (.ok b, w) => k b w.fs
  | _ => []

/-- The files as the failures that can be tested leave them, in order: a read, sync or
truncation fails without effect; a write fails without effect, or after half of the
bytes (rounded up). -/
def failurePoints : Prog α → Fs → List Fs
  | .ret _, _ => []
  | .raise _, _ => []
  | .size p k, fs => afterOk (fSize p) (fun n => failurePoints (k n)) fs
  | .read p off n k, fs => fs :: afterOk (fRead p off n) (fun b => failurePoints (k b)) fs
  | .write p off bs k, fs =>
    fs :: (fWrite p off (bs.take ((bs.length + 1) / 2)) calm ⟨fs, 0, []⟩).2.fs ::
      afterOk (fWrite p off bs) (fun _ => failurePoints k) fs
  | .append p off bs k, fs =>
    fs :: (fAppend p off (bs.take ((bs.length + 1) / 2)) calm ⟨fs, 0, []⟩).2.fs ::
      afterOk (fAppend p off bs) (fun _ => failurePoints k) fs
  | .sync _ k, fs => fs :: failurePoints k fs
  | .trunc p n k, fs => fs :: afterOk (fTrunc p n) (fun _ => failurePoints k) fs

end NuDB.Spec
