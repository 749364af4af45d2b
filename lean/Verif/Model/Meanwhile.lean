import Verif.Model.Rekey
/-
`visit` (impl/visit.ipp) while the files are being changed by others. Each file operation
of the iteration finds the files as others left them: between two of them there may have
been any number of operations of other threads or processes. `visit` itself only reads.
-/
namespace NuDB

/-- The files at the time of the i-th file operation of the iteration. -/
abbrev FilesAt := Nat → Fs

/-- A file operation on the files as others left them. Not code: it stands for the time
between two calls of the file class. -/
def after (env : FilesAt) (op : M α) : M α := fun σ w => op σ { w with fs := env w.clock }

/-- `bulk_reader::prepare` (bulkio.hpp 65-104), see `Reader.prepare`, with `after` in front of
the read. -/
def Reader.prepareMean (c : Cfg) (env : FilesAt) (r : Reader) (needed : Nat) : M (Bytes × Reader) := do
  let r ← if needed > r.avail then
      if r.offset + needed - r.avail > r.last then M.fail .short_read
      else do
        let old ← M.lift (peek r.buf r.used r.avail)
        let buf := if needed > r.buf.length then c.fresh needed else r.buf
        let buf ← M.lift (poke buf 0 old)
        let n := min (buf.length - r.avail) (r.last - r.offset)
        let data ← after env (fRead r.path r.offset n)
        let buf ← M.lift (poke buf r.avail data)
        M.ret { r with buf := buf, offset := r.offset + n, avail := r.avail + n, used := 0 }
    else M.ret r
  let out ← M.lift (peek r.buf r.used needed)
  M.ret (out, { r with used := r.used + needed, avail := r.avail - needed })

/-- One round of the loop of `visit` (visit.ipp 56-91), see `visitStep`. -/
def visitStepMean (c : Cfg) (env : FilesAt) (keySize fileSize : Nat) (cb : List Event → Option Err) (r : Reader) :
    M Reader := do
  let (is, r) ← r.prepareMean c env 6
  let size ← M.lift (getSize48 is)
  let r ← if size > 0 then do
      match ← M.attempt (r.prepareMean c env (keySize + size)) with
      | .error _ => M.raise .throw
      | .ok (is, r) => do
        emit (.item (is.take keySize) (is.drop keySize))
        match cb (← history) with
        | some e => M.fail e
        | none => M.ret r
    else do
      let (is, r) ← r.prepareMean c env 2
      let (_, r) ← r.prepareMean c env (getU16 is)
      M.ret r
  emit (.progress r.pos fileSize)
  M.ret r

/-- The loop of `visit` (visit.ipp 56-91), see `visitLoop`. -/
def visitLoopMean (c : Cfg) (env : FilesAt) (keySize fileSize : Nat) (cb : List Event → Option Err) :
    Nat → Reader → M Unit
  | 0, _ => M.raise .hang
  | fuel + 1, r => do
    if r.eof then M.ret ()
    else do
      let r ← visitStepMean c env keySize fileSize cb r
      visitLoopMean c env keySize fileSize cb fuel r

/-- `visit` (visit.ipp 23-92), see `visit`, while others use the files. The header is one read
(format.hpp 279-290, `readDatHeader`). -/
def visitMean (c : Cfg) (env : FilesAt) (cb : List Event → Option Err) : M Unit := do
  after env (fOpen .dat)
  let dh ← after env readDatHeader
  M.check (verifyDat dh)
  let fileSize ← after env (fSize .dat)
  let r := Reader.new c .dat datHeaderSize fileSize (1024 * 4096)
  emit (.progress 0 fileSize)
  visitLoopMean c env dh.keySize fileSize cb (fileSize + 1) r

end NuDB
