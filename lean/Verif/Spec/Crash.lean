import Verif.Model.File
/-
Specification of what a crash may do to the files.
-/
namespace NuDB.Spec

/-- `v` was the content of the file at some moment since its last sync. -/
def Version (f : FileSt) (v : Bytes) : Prop :=
  ∃ k, v = (f.pend.take k).foldl POp.apply f.base

/-- What a power failure can make of a file whose unsynced changes reach the disk in any
order and partially: every byte is the byte some version has at this place, or zero where
some version had no byte yet; the length lies between lengths of versions. -/
structure Unordered (f : FileSt) (img : Bytes) : Prop where
  bytes : ∀ i (h : i < img.length),
    (∃ v, Version f v ∧ v[i]? = some img[i]) ∨ (∃ v, Version f v ∧ v.length ≤ i ∧ img[i] = 0)
  lower : ∃ v, Version f v ∧ v.length ≤ img.length
  upper : ∃ v, Version f v ∧ img.length ≤ v.length

/-- What a power failure can make of a file whose unsynced changes reach the disk in the
order they were issued: some of the operations, the next one possibly cut short. -/
def Ordered (f : FileSt) (img : Bytes) : Prop :=
  Version f img ∨
  ∃ k off bs j, f.pend[k]? = some (.write off bs) ∧
    img = POp.apply ((f.pend.take k).foldl POp.apply f.base) (.write off (bs.take j))

/-- Power failure: unsynced changes of data and key file are persisted in any order, those
of the log file in the order they were issued. Creation of files is durable, and removal of
the data and key file. The removal of a log file may be lost: next to a key file it may be
there again, but empty, because it was emptied and synced before its removal (`C67_emptied_partial`;
`rekey` does not do that, see `C67_rekey_violated`; without a key file, see `C30_stuck`). -/
def PowerLoss (fs fs' : Fs) : Prop :=
  ∀ p, match fs p with
    | none => fs' p = none ∨ (p = .log ∧ fs .key ≠ none ∧ fs' p = some (FileSt.clean []))
    | some f => ∃ img, fs' p = some (FileSt.clean img) ∧
        (if p = .log then Ordered f img else Unordered f img)

/-- The machine survives and only the process dies, or power fails. -/
def Restart (fs fs' : Fs) : Prop := fs' = fs ∨ PowerLoss fs fs'

/-- The file holds `v` whatever happens: all versions since the last sync are equal. -/
def Stable (f : FileSt) (v : Bytes) : Prop := ∀ u, Version f u → u = v

/-- The data file comes close to the largest offset of the file format: at most the
content of the write buffer (128 KiB or one record, at most 2^33 bytes) is missing. -/
def Big (fs : Fs) : Prop := ∃ f, fs .dat = some f ∧ 2 ^ 48 ≤ f.cur.length + 2 ^ 33

end NuDB.Spec
