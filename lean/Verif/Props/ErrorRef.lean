import Verif.Spec.ErrorRef
import Verif.Props.Demo
import Verif.Proof.Damage6
/-
C70: error codes are passed by reference.
-/
namespace NuDB

open Spec

private theorem Spec.Reports.ret (a : α) : Reports (EcM.ret a) (M.ret a) := fun _ _ => rfl

private theorem Spec.Reports.fail (e : Err) : Reports (EcM.fail e : EcM α) (M.fail e) := fun _ _ => rfl

private theorem Spec.Reports.lift (m : M α) : Reports (EcM.lift m) m := by
  intro σ w
  simp only [EcM.lift, bind, M.bind, M.attempt]
  rcases m σ w with ⟨_ | _, w'⟩
  · rename_i x; cases x <;> rfl
  · rfl

private theorem Spec.Reports.op (m : M α) : Reports (EcM.op m) m := by
  intro σ w
  simp only [EcM.op, bind, M.bind, M.attempt]
  rcases m σ w with ⟨_ | _, w'⟩
  · rename_i x; cases x <;> rfl
  · rfl

private theorem Spec.Reports.call {f : EcM α} {m : M α} (h : Reports f m) : Reports (EcM.call f) m := by
  intro σ w
  simp only [EcM.call, bind, M.bind, h σ w]
  rcases m σ w with ⟨_ | _, w'⟩
  · rename_i x; cases x <;> rfl
  · rfl

private theorem Spec.Reports.bind {f : EcM α} {m : M α} {k : α → EcM β} {j : α → M β} (h : Reports f m)
    (hk : ∀ a, Reports (k a) (j a)) : Reports (f >>= k) (m >>= j) := by
  intro σ w
  simp only [Bind.bind, EcM.bind, M.bind, h σ w]
  rcases m σ w with ⟨_ | _, w'⟩
  · rename_i x; cases x <;> rfl
  · exact hk _ σ w'

private theorem ecAssoc (m : M α) (j : α → M β) (k : β → M γ) : m >>= j >>= k = m >>= fun a => j a >>= k := by
  funext σ w
  simp only [Bind.bind, M.bind]
  rcases m σ w with ⟨_ | _, w'⟩ <;> rfl

private theorem readFile_reports (b : Bkt) (p : Path) (off : Nat) : Reports (b.readFileE p off) (b.readFile p off) := by
  unfold Bkt.readFileE Bkt.readFile
  refine .bind (.op _) fun _ => .bind (.lift _) fun _ => .bind (.lift _) fun _ => ?_
  split
  · exact .fail _
  · exact .ret _

private theorem fetchScan_reports (ks h : Nat) (key : Bytes) (b : Bkt) : ∀ fuel i,
    Reports (fetchScanE ks h key b fuel i) (fetchScan ks h key b fuel i)
  | 0, _ => .lift _
  | fuel + 1, i => by
    unfold fetchScanE fetchScan
    split
    · refine .bind (.lift _) fun _ => ?_
      split
      · exact .ret _
      · refine .bind (.op _) fun _ => ?_
        split
        · exact .ret _
        · exact fetchScan_reports ks h key b fuel (i + 1)
    · exact .ret _

private theorem fetchBucket_reports (c : Cfg) (kh : KeyHeader) (h : Nat) (key : Bytes) : ∀ fuel b,
    Reports (fetchBucketE c kh h key fuel b) (fetchBucket c kh h key fuel b)
  | 0, _ => .lift _
  | fuel + 1, b => by
    unfold fetchBucketE fetchBucket
    refine .bind (.lift _) fun _ => .bind (fetchScan_reports _ _ _ _ _ _) fun r => ?_
    cases r with
    | some v => exact .ret _
    | none =>
      dsimp only
      split
      · exact .fail _
      · exact .bind (.lift _) fun _ => .bind (.call (readFile_reports _ _ _)) fun _ => fetchBucket_reports c kh h key fuel _

private theorem existsScan_reports (ks h : Nat) (key : Bytes) (b : Bkt) : ∀ fuel i,
    Reports (existsScanE ks h key b fuel i) (existsScan ks h key b fuel i)
  | 0, _ => .lift _
  | fuel + 1, i => by
    unfold existsScanE existsScan
    split
    · refine .bind (.lift _) fun _ => ?_
      split
      · exact .ret _
      · refine .bind (.op _) fun _ => ?_
        split
        · exact .ret _
        · exact existsScan_reports ks h key b fuel (i + 1)
    · exact .ret _

private theorem existsBucket_reports (c : Cfg) (kh : KeyHeader) (h : Nat) (key : Bytes) : ∀ fuel b,
    Reports (existsBucketE c kh h key fuel b) (existsBucket c kh h key fuel b)
  | 0, _ => .lift _
  | fuel + 1, b => by
    unfold existsBucketE existsBucket
    refine .bind (.lift _) fun _ => .bind (existsScan_reports _ _ _ _ _ _) fun r => ?_
    split
    · exact .ret _
    · split
      · exact .ret _
      · exact .bind (.lift _) fun _ => .bind (.call (readFile_reports _ _ _)) fun _ => existsBucket_reports c kh h key fuel _

/-- C70, `fetch` with a clear `ec`. -/
theorem C70_fetch_partial (c : Cfg) (s : Store) (key : Bytes) : Reports (fetchE c s key) (fetch c s key) := by
  unfold fetchE fetch
  cases s.ec with
  | some e => exact .fail _
  | none =>
    dsimp only
    cases s.p1.find key with
    | some it => exact .ret _
    | none =>
      dsimp only
      cases s.p0.find key with
      | some it => exact .ret _
      | none =>
        refine .bind (.lift _) fun n => .bind (.lift _) fun _ => ?_
        cases s.c1.find n with
        | some p => exact .bind (.lift _) fun _ => fetchBucket_reports _ _ _ _ _ _
        | none => exact .bind (.lift _) fun _ => .bind (.call (readFile_reports _ _ _)) fun _ => fetchBucket_reports _ _ _ _ _ _

private theorem insertCheck_reports (c : Cfg) (s : Store) (h : Nat) (key : Bytes) :
    Reports (insertCheckE c s h key) (insertCheck c s h key) := by
  unfold insertCheckE insertCheck
  split
  · exact .fail _
  · refine .bind (.lift _) fun n => .bind (.lift _) fun fuel => ?_
    have tail : ∀ found : Bool, Reports (if found then EcM.fail .key_exists else EcM.ret () : EcM Unit)
        (if found then M.fail .key_exists else M.ret ()) := by
      intro found
      cases found
      · exact .ret _
      · exact .fail _
    unfold insertExistsE
    split
    · rename_i p hp
      simp only [hp]
      have := Spec.Reports.bind (.bind (.lift (M.lift (Bkt.ofMem s.kh.blockSize p))) fun b =>
        .call (existsBucket_reports c s.kh h key fuel b)) tail
      simpa only [ecAssoc] using this
    · rename_i hp
      simp only [hp]
      have := Spec.Reports.bind (.bind (.lift (M.lift (Bkt.ofMem s.kh.blockSize (c.fresh s.kh.blockSize)))) fun b =>
        .bind (.call (readFile_reports b .key ((n + 1) * s.kh.blockSize))) fun b =>
        .call (existsBucket_reports c s.kh h key fuel b)) tail
      simpa only [ecAssoc] using this

/-- C70, `insert` with a clear `ec`. -/
theorem C70_insert_partial (c : Cfg) (s : Store) (key data : Bytes) : Reports (insertE c s key data) (insert c s key data) := by
  unfold insertE insert
  cases s.ec with
  | some e => exact .fail _
  | none =>
    refine .bind (.lift _) fun _ => .bind (.lift _) fun _ => .bind (insertCheck_reports _ _ _ _) fun _ => ?_
    exact .bind (.lift _) fun _ => .ret _

/-- C70, `open` with a clear `ec`. -/
theorem C70_open_partial (c : Cfg) : Reports (openE c) (openStore c) := by
  have : openStore c = (do fOpen .dat; openTail c) := by
    have : recover c = (do fOpen .dat; recoverTail c) := rfl
    unfold openStore openTail
    rw [this, ecAssoc]
  rw [this]
  exact .bind (.op _) fun _ => .lift _

/-- C70, `create` with a clear `ec`. -/
theorem C70_create_partial (c : Cfg) (asserts : Bool) (a : CreateArgs) : Reports (createE c asserts a) (create c asserts a) := by
  unfold createE create
  split
  · exact .fail _
  split
  · exact .fail _
  split
  · exact .fail _
  split
  · exact .fail _
  have : ∀ k : M Unit, Reports (do EcM.op (fCreate .dat); EcM.lift k : EcM Unit) (do fCreate .dat; k) :=
    fun k => .bind (.op _) fun _ => .lift _
  intro σ w
  rw [this _ σ w]
  simp only [createTail, bind, M.bind, M.attempt]
  rcases fCreate .dat σ w with ⟨_ | _, w'⟩
  · rename_i x; cases x <;> rfl
  · rfl

/-- C70, `close` with a clear `ec`. -/
theorem C70_close_partial (c : Cfg) (s : Store) : Reports (closeE c s) (do
    match ← close c s with
    | some e => M.fail e
    | none => M.ret ()) := by
  unfold closeE
  refine .bind (.lift _) fun r => ?_
  cases r
  · exact .ret _
  · exact .fail _

/-! ### With an error left from before -/

private def Still (m : M α) : Prop := ∀ σ w r w', m σ w = (r, w') → w'.fs = w.fs

private theorem still_fileOp {ok : Fs → Except Exc α × Fs} (h : ∀ fs, (ok fs).2 = fs) :
    Still (fileOp ok (fun fs _ => fs)) := by
  intro σ w r w' e
  unfold fileOp at e
  split at e <;> cases e <;> simp [h]

private theorem still_read (p : Path) (off n : Nat) : Still (fRead p off n) :=
  still_fileOp fun fs => by cases fs p <;> simp <;> split <;> rfl

private theorem still_lift (r : Res α) : Still (M.lift r) := fun _ _ _ _ e => by cases e; rfl

private theorem still_raise (x : Exc) : Still (M.raise x : M α) := fun _ _ _ _ e => by cases e; rfl

private theorem still_fuel : Still lookupFuel := fun _ _ _ _ e => by cases e; rfl

/-- The error remains, and the files. -/
private def Keeps (f : EcM α) : Prop := ∀ e σ w r ec w', f (some e) σ w = (.ok (r, ec), w') → ec ≠ none ∧ w'.fs = w.fs

/-- Moreover there is no result. -/
private def Stops (f : EcM α) : Prop :=
  ∀ e σ w r ec w', f (some e) σ w = (.ok (r, ec), w') → r = none ∧ ec ≠ none ∧ w'.fs = w.fs

private theorem Stops.keeps {f : EcM α} (h : Stops f) : Keeps f := fun _ _ _ _ _ _ e => (h _ _ _ _ _ _ e).2

private theorem Keeps.ret (a : α) : Keeps (EcM.ret a) := fun _ _ _ _ _ _ e => by cases e; exact ⟨nofun, rfl⟩

private theorem Stops.fail (x : Err) : Stops (EcM.fail x : EcM α) := fun _ _ _ _ _ _ e => by cases e; exact ⟨rfl, nofun, rfl⟩

private theorem Keeps.lift {m : M α} (hm : Still m) : Keeps (EcM.lift m) := by
  intro e σ w r ec w' h
  simp only [EcM.lift, bind, M.bind, M.attempt] at h
  cases hr : m σ w with
  | mk r' w1 =>
    have := hm _ _ _ _ hr
    rw [hr] at h
    cases r' with
    | ok a => cases h; exact ⟨nofun, this⟩
    | error x => cases x <;> cases h; exact ⟨nofun, this⟩

private theorem Stops.op {m : M α} (hm : Still m) : Stops (EcM.op m) := by
  intro e σ w r ec w' h
  simp only [EcM.op, bind, M.bind, M.attempt] at h
  cases hr : m σ w with
  | mk r' w1 =>
    have := hm _ _ _ _ hr
    rw [hr] at h
    cases r' with
    | ok a => cases h; exact ⟨rfl, nofun, this⟩
    | error x => cases x <;> cases h; exact ⟨rfl, nofun, this⟩

private theorem Stops.call {f : EcM α} (hf : Keeps f) : Stops (EcM.call f) := by
  intro e σ w r ec w' h
  simp only [EcM.call, bind, M.bind] at h
  cases hr : f (some e) σ w with
  | mk r' w1 =>
    rw [hr] at h
    cases r' with
    | ok p =>
      obtain ⟨a, ec1⟩ := p
      obtain ⟨h1, h2⟩ := hf _ _ _ _ _ _ hr
      cases ec1 with
      | none => exact absurd rfl h1
      | some e1 => cases h; exact ⟨rfl, h1, h2⟩
    | error x => cases h

private theorem Stops.first {f : EcM α} {k : α → EcM β} (hf : Stops f) : Stops (f >>= k) := by
  intro e σ w r ec w' h
  simp only [Bind.bind, EcM.bind, M.bind] at h
  cases hr : f (some e) σ w with
  | mk r' w1 =>
    rw [hr] at h
    cases r' with
    | ok p =>
      obtain ⟨a, ec1⟩ := p
      obtain ⟨h1, h2, h3⟩ := hf _ _ _ _ _ _ hr
      subst h1
      cases h; exact ⟨rfl, h2, h3⟩
    | error x => cases h

private theorem Stops.then {f : EcM α} {k : α → EcM β} (hf : Keeps f) (hk : ∀ a, Stops (k a)) : Stops (f >>= k) := by
  intro e σ w r ec w' h
  simp only [Bind.bind, EcM.bind, M.bind] at h
  cases hr : f (some e) σ w with
  | mk r' w1 =>
    rw [hr] at h
    cases r' with
    | ok p =>
      obtain ⟨a, ec1⟩ := p
      obtain ⟨h2, h3⟩ := hf _ _ _ _ _ _ hr
      cases ec1 with
      | none => exact absurd rfl h2
      | some e1 =>
        cases a with
        | none => cases h; exact ⟨rfl, h2, h3⟩
        | some a =>
          obtain ⟨h4, h5, h6⟩ := hk a _ _ _ _ _ _ h
          exact ⟨h4, h5, h6.trans h3⟩
    | error x => cases h

private theorem Keeps.then {f : EcM α} {k : α → EcM β} (hf : Keeps f) (hk : ∀ a, Keeps (k a)) : Keeps (f >>= k) := by
  intro e σ w r ec w' h
  simp only [Bind.bind, EcM.bind, M.bind] at h
  cases hr : f (some e) σ w with
  | mk r' w1 =>
    rw [hr] at h
    cases r' with
    | ok p =>
      obtain ⟨a, ec1⟩ := p
      obtain ⟨h2, h3⟩ := hf _ _ _ _ _ _ hr
      cases ec1 with
      | none => exact absurd rfl h2
      | some e1 =>
        cases a with
        | none => cases h; exact ⟨h2, h3⟩
        | some a =>
          obtain ⟨h5, h6⟩ := hk a _ _ _ _ _ _ h
          exact ⟨h5, h6.trans h3⟩
    | error x => cases h

private theorem stops_readFile (b : Bkt) (p : Path) (off : Nat) : Stops (b.readFileE p off) := by
  unfold Bkt.readFileE
  exact .first (.op (still_read _ _ _))

private theorem keeps_existsScan (ks h : Nat) (key : Bytes) (b : Bkt) : ∀ fuel i, Keeps (existsScanE ks h key b fuel i)
  | 0, _ => .lift (still_raise _)
  | fuel + 1, i => by
    unfold existsScanE
    split
    · refine .then (.lift (still_lift _)) fun _ => ?_
      split
      · exact .ret _
      · exact (Stops.first (.op (still_read _ _ _))).keeps
    · exact .ret _

private theorem keeps_existsBucket (c : Cfg) (kh : KeyHeader) (h : Nat) (key : Bytes) : ∀ fuel b,
    Keeps (existsBucketE c kh h key fuel b)
  | 0, _ => .lift (still_raise _)
  | fuel + 1, b => by
    unfold existsBucketE
    refine .then (.lift (still_lift _)) fun _ => .then (keeps_existsScan _ _ _ _ _ _) fun r => ?_
    split
    · exact .ret _
    · split
      · exact .ret _
      · exact .then (.lift (still_lift _)) fun _ => (Stops.first (.call (stops_readFile _ _ _).keeps)).keeps

/-- C70 is false for `insert`: if `ec` contains an error before the call, whatever it is, nothing is inserted. -/
theorem C70_insert_violated {c : Cfg} {s : Store} {key data : Bytes} {e : Err} {σ : Schedule} {w w' : World}
    {r : Option Store} {ec : Option Err} (h : insertE c s key data (some e) σ w = (.ok (r, ec), w')) :
    r = none ∧ ec ≠ none ∧ w'.fs = w.fs := by
  suffices H : Stops (insertE c s key data) from H _ _ _ _ _ _ h
  unfold insertE
  cases s.ec with
  | some e => exact .fail _
  | none =>
    refine .then (.lift (still_lift _)) fun _ => .then (.lift (still_lift _)) fun _ => .first ?_
    unfold insertCheckE
    split
    · exact .fail _
    · refine .then (.lift (still_lift _)) fun n => .then (.lift still_fuel) fun _ => .first ?_
      unfold insertExistsE
      cases s.c1.find n with
      | some p => exact .then (.lift (still_lift _)) fun _ => .call (keeps_existsBucket _ _ _ _ _ _)
      | none => exact .then (.lift (still_lift _)) fun _ => .first (.call (stops_readFile _ _ _).keeps)

private theorem fetchScan_stale (ks h : Nat) (key : Bytes) (b : Bkt) : ∀ fuel i {e σ w r ec w'},
    fetchScanE ks h key b fuel i (some e) σ w = (.ok (some (some r), ec), w') → False
  | 0, _, _, _, _, _, _, _, h' => by cases h'
  | fuel + 1, i, e, σ, w, r, ec, w', h' => by
    unfold fetchScanE at h'
    split at h'
    · simp only [Bind.bind, EcM.bind, M.bind] at h'
      cases hr : EcM.lift (M.lift (b.get i)) (some e) σ w with
      | mk r' w1 =>
        rw [hr] at h'
        cases r' with
        | error x => cases h'
        | ok p =>
          obtain ⟨a, ec1⟩ := p
          cases a with
          | none => cases h'
          | some it =>
            have hk := Keeps.lift (still_lift (b.get i)) _ _ _ _ _ _ hr
            obtain ⟨e1, rfl⟩ := Option.ne_none_iff_exists'.mp hk.1
            dsimp only at h'
            split at h'
            · cases h'
            · have := (Stops.first (k := fun buf => if List.take ks buf = key then EcM.ret (some (List.drop ks buf))
                else fetchScanE ks h key b fuel (i + 1)) (Stops.op (still_read .dat (it.offset + 6) (ks + it.size))) _ _ _ _ _ _ h').1
              cases this
    · cases h'

private theorem keeps_fetchScan (ks h : Nat) (key : Bytes) (b : Bkt) : ∀ fuel i, Keeps (fetchScanE ks h key b fuel i)
  | 0, _ => .lift (still_raise _)
  | fuel + 1, i => by
    unfold fetchScanE
    split
    · refine .then (.lift (still_lift _)) fun _ => ?_
      split
      · exact .ret _
      · exact (Stops.first (.op (still_read _ _ _))).keeps
    · exact .ret _

private theorem stops_fetchBucket (c : Cfg) (kh : KeyHeader) (h : Nat) (key : Bytes) : ∀ fuel b,
    Stops (fetchBucketE c kh h key fuel b)
  | 0, _ => fun _ _ _ _ _ _ e => by cases e
  | fuel + 1, b => by
    unfold fetchBucketE
    refine .then (.lift (still_lift _)) fun i => ?_
    intro e σ w r ec w' h'
    simp only [Bind.bind, EcM.bind, M.bind] at h'
    cases hr : fetchScanE kh.keySize h key b (b.size + 1) i (some e) σ w with
    | mk r' w1 =>
      rw [hr] at h'
      cases r' with
      | error x => cases h'
      | ok p =>
        obtain ⟨a, ec1⟩ := p
        obtain ⟨h2, h3⟩ := keeps_fetchScan _ _ _ _ _ _ _ _ _ _ _ _ hr
        obtain ⟨e1, rfl⟩ := Option.ne_none_iff_exists'.mp h2
        cases a with
        | none => cases h'; exact ⟨rfl, h2, h3⟩
        | some a =>
          cases a with
          | some v => exact (fetchScan_stale _ _ _ _ _ _ hr).elim
          | none =>
            have : Stops (if b.spill = 0 then EcM.fail .key_not_found
              else do
                let nb ← EcM.lift (M.lift (Bkt.ofMem kh.blockSize (c.fresh kh.blockSize)))
                let nb ← EcM.call (nb.readFileE .dat b.spill)
                fetchBucketE c kh h key fuel nb) := by
              split
              · exact .fail _
              · exact .then (.lift (still_lift _)) fun _ => .first (.call (stops_readFile _ _ _).keeps)
            obtain ⟨h4, h5, h6⟩ := this _ _ _ _ _ _ h'
            exact ⟨h4, h5, h6.trans h3⟩

/-- C70 is false for `fetch`: if `ec` contains an error before the call, no value is found that is not in memory. -/
theorem C70_fetch_violated {c : Cfg} {s : Store} {key : Bytes} {e : Err} {σ : Schedule} {w w' : World}
    {r : Option Bytes} {ec : Option Err} (h1 : s.p1.find key = none) (h0 : s.p0.find key = none)
    (h : fetchE c s key (some e) σ w = (.ok (r, ec), w')) : r = none ∧ ec ≠ none ∧ w'.fs = w.fs := by
  suffices H : Stops (fetchE c s key) from H _ _ _ _ _ _ h
  unfold fetchE
  cases s.ec with
  | some e => exact .fail _
  | none =>
    simp only [h1, h0]
    refine .then (.lift (still_lift _)) fun n => .then (.lift still_fuel) fun _ => ?_
    cases s.c1.find n with
    | some p => exact .then (.lift (still_lift _)) fun _ => stops_fetchBucket _ _ _ _ _ _
    | none => exact .then (.lift (still_lift _)) fun _ => .first (.call (stops_readFile _ _ _).keeps)

/-- C70 is false for `fetch` also if the value is in memory: the callback is called, but the old error remains. -/
theorem C70_found_violated {c : Cfg} {s : Store} {key : Bytes} {it : Item} {e : Err} (hs : s.ec = none)
    (h : s.p1.find key = some it) (σ : Schedule) (w : World) :
    fetchE c s key (some e) σ w = (.ok (some it.data, some e), w) := by
  unfold fetchE
  simp only [hs, h]
  rfl

/-- C70 is false for `open`: if `ec` contains an error before the call, the database is not opened. -/
theorem C70_open_violated {c : Cfg} {e : Err} {σ : Schedule} {w w' : World} {r : Option Store} {ec : Option Err}
    (h : openE c (some e) σ w = (.ok (r, ec), w')) : r = none ∧ ec ≠ none ∧ w'.fs = w.fs := by
  suffices H : Stops (openE c) from H _ _ _ _ _ _ h
  exact .first (.op (still_fileOp fun fs => by cases fs .dat <;> rfl))

/-- What C70 says of `recover`, `visit`, `rekey` and `verify`, as far as it holds: with a clear `ec` they do what the rest of
the model says. -/
theorem C70_others_partial (c : Cfg) (cb : List Event → Option Err) (a : RekeyArgs) (n : Nat) :
    Reports (recoverE c) (recover c) ∧ Reports (visitE c cb) (visit c cb) ∧ Reports (rekeyE c a) (rekey c a) ∧
      Reports (verifyE c n) (verify c n) :=
  ⟨.bind (.op _) fun _ => .lift _, .bind (.op _) fun _ => .lift _, .bind (.op _) fun _ => .lift _, .bind (.op _) fun _ => .lift _⟩

private theorem first_open {m : M α} {e : Err} {σ : Schedule} {w w' : World} {r : Option α} {ec : Option Err}
    (h : (do EcM.op (fOpen .dat); EcM.lift m : EcM α) (some e) σ w = (.ok (r, ec), w')) :
    r = none ∧ ec ≠ none ∧ w'.fs = w.fs ∧ w'.out = w.out := by
  simp only [bind, EcM.bind, EcM.op, M.bind, M.attempt, fOpen, fileOp] at h
  cases hs : σ w.clock with
  | none =>
    cases hf : w.fs .dat with
    | none => simp [hs, hf, M.ret] at h; obtain ⟨⟨rfl, rfl⟩, rfl⟩ := h; simp
    | some f => simp [hs, hf, M.ret] at h; obtain ⟨⟨rfl, rfl⟩, rfl⟩ := h; simp
  | fail k => simp [hs, M.ret] at h; obtain ⟨⟨rfl, rfl⟩, rfl⟩ := h; simp
  | crash k => simp [hs] at h

/-- C70 is false for these functions, too: if `ec` contains an error before the call, nothing is recovered, visited, rebuilt
or verified, and no callback is called. -/
theorem C70_others_violated (c : Cfg) (cb : List Event → Option Err) (a : RekeyArgs) (n : Nat) :
    Refuses (recoverE c) ∧ Refuses (visitE c cb) ∧ Refuses (rekeyE c a) ∧ Refuses (verifyE c n) :=
  ⟨fun _ _ _ _ _ _ h => first_open h, fun _ _ _ _ _ _ h => first_open h, fun _ _ _ _ _ _ h => first_open h,
    fun _ _ _ _ _ _ h => first_open h⟩

/- Such calls, in an empty directory and with a data file. -/
example (c : Cfg) : ∃ w', recoverE c (some .key_not_found) calm ⟨fun _ => none, 0, []⟩ = (.ok (none, some .no_such_file), w') ∧
    ∃ f, ∃ w', visitE c (fun _ => none) (some .key_not_found) calm ⟨fun _ => some (.clean f), 0, []⟩ =
      (.ok (none, some .key_not_found), w') := ⟨_, rfl, [1], _, rfl⟩

/-- C70 is false for `close`: if it succeeds, the old error remains. -/
theorem C70_close_violated {c : Cfg} {s : Store} {σ : Schedule} {w w' : World} (h : close c s σ w = (.ok none, w')) (e : Err) :
    closeE c s (some e) σ w = (.ok (some (), some e), w') := by
  simp only [closeE, bind, EcM.bind, EcM.lift, M.bind, M.attempt, h]
  rfl

/-- C70 is false for `create`: if `ec` contains an error before the call, it leaves an empty data file, which it does not remove
although it reports an error, and which lets the next attempt fail. -/
theorem C70_create_violated {c : Cfg} {b : Bool} {a : CreateArgs} {lf : Nat} (ha : Creatable a lf) {w : World}
    (hw : ∀ p, w.fs p = none) (e : Err) :
    createE c b a (some e) calm w = (.ok (none, some e), ⟨w.fs.set .dat (some (FileSt.clean [])), w.clock + 1, w.out⟩) := by
  obtain ⟨num, den, hl, h1, h2, _⟩ := ha.load
  have hb : a.load.bad = false := by
    rw [hl]
    simp only [Load.bad, Bool.or_eq_false_iff, decide_eq_false_iff_not]
    omega
  have hc : ¬ bucketCapacity a.blockSize < 1 := by
    have := cap_pos ha.block.1
    omega
  unfold createE
  rw [if_neg (by have := ha.key.1; omega), if_neg (by have := ha.block.2; omega), if_neg (by simp [hb]), if_neg hc]
  simp only [bind, EcM.bind, EcM.op, M.bind, M.attempt, fCreate, fileOp, calm, hw]
  rfl

/-- All together, in a database with the key `[4, 6]` but not `[9, 9]`: with a clear `ec`, `fetch` of the one finds it and of
the other does not, and then `insert` works. But if the `ec` of the failed `fetch` is used again, `fetch` reports that the
first key does not exist, and `insert` does not insert the second. -/
theorem C70_violated : ∃ t s w, Reachable demoCfg demoArgs False t (some s, w.fs) ∧
    (∃ w', fetchE demoCfg s [9, 9] none calm w = (.ok (none, some .key_not_found), w')) ∧
    (∃ w', fetchE demoCfg s [4, 6] none calm w = (.ok (some [60], none), w')) ∧
    (∃ s' w', insertE demoCfg s [9, 9] [1] none calm w = (.ok (some s', none), w')) ∧
    (∃ w', fetchE demoCfg s [4, 6] (some .key_not_found) calm w = (.ok (none, some .key_not_found), w')) ∧
    ∃ w', insertE demoCfg s [9, 9] [1] (some .key_not_found) calm w = (.ok (none, some .key_not_found), w') := by
  have h : demoTest demoCfg demoArgs (demoOps.take 10) (fun s w =>
      (match fetchE demoCfg s [9, 9] none calm w with | (.ok (none, some .key_not_found), _) => true | _ => false) &&
      ((match fetchE demoCfg s [4, 6] none calm w with | (.ok (some v, none), _) => v == [60] | _ => false) &&
      ((match insertE demoCfg s [9, 9] [1] none calm w with | (.ok (some _, none), _) => true | _ => false) &&
      ((match fetchE demoCfg s [4, 6] (some .key_not_found) calm w with
        | (.ok (none, some .key_not_found), _) => true | _ => false) &&
      (match insertE demoCfg s [9, 9] [1] (some .key_not_found) calm w with
        | (.ok (none, some .key_not_found), _) => true | _ => false))))) = true := by
    decide +kernel
  obtain ⟨rets, s, w, h1, h2⟩ := demo_test (demoOps_sound 10) h
  simp only [Bool.and_eq_true] at h2
  obtain ⟨a1, a2, a3, a4, a5⟩ := h2
  refine ⟨_, s, w, h1, ?_, ?_, ?_, ?_, ?_⟩
  · split at a1
    · rename_i e; exact ⟨_, e⟩
    · cases a1
  · split at a2
    · rename_i e; rw [beq_iff_eq] at a2; subst a2; exact ⟨_, e⟩
    · cases a2
  · split at a3
    · rename_i e; exact ⟨_, _, e⟩
    · cases a3
  · split at a4
    · rename_i e; exact ⟨_, e⟩
    · cases a4
  · split at a5
    · rename_i e; exact ⟨_, e⟩
    · cases a5

/-- Hence neither function is indifferent to the content of `ec`. -/
theorem C70_not_indifferent : ∃ t s fs, Reachable demoCfg demoArgs False t (some s, fs) ∧
    ¬ Indifferent (fetchE demoCfg s [4, 6]) ∧ ¬ Indifferent (insertE demoCfg s [9, 9] [1]) := by
  obtain ⟨t, s, w, h, _, ⟨_, h1⟩, ⟨_, _, h2⟩, ⟨_, h3⟩, _, h4⟩ := C70_violated
  refine ⟨t, s, w.fs, h, fun hi => ?_, fun hi => ?_⟩
  · have := hi (some .key_not_found) calm w
    rw [h1, h3] at this
    cases this
  · have := hi (some .key_not_found) calm w
    rw [h2, h4] at this
    cases this

/-- The premises of the other theorems can be met: a store with an item in memory, which can be closed. -/
example : ∃ t s w it, Reachable demoCfg demoArgs False t (some s, w.fs) ∧ s.ec = none ∧ s.p1.find [1, 1] = some it ∧
    s.p1.find [9, 9] = none ∧ s.p0.find [9, 9] = none ∧ ∃ w', close demoCfg s calm w = (.ok none, w') := by
  have h : demoTest demoCfg demoArgs (demoOps.take 2) (fun s w => s.ec.isNone && ((s.p1.find [1, 1]).isSome &&
      ((s.p1.find [9, 9]).isNone && ((s.p0.find [9, 9]).isNone &&
      (match close demoCfg s calm w with | (.ok none, _) => true | _ => false))))) = true := by
    decide +kernel
  obtain ⟨rets, s, w, h1, h2⟩ := demo_test (demoOps_sound 2) h
  simp only [Bool.and_eq_true, Option.isNone_iff_eq_none] at h2
  obtain ⟨a1, a2, a3, a4, a5⟩ := h2
  obtain ⟨it, a2⟩ := Option.isSome_iff_exists.mp a2
  refine ⟨_, s, w, it, h1, a1, a2, a3, a4, ?_⟩
  split at a5
  · rename_i e; exact ⟨_, e⟩
  · cases a5

example : Creatable demoArgs 32768 := demo_creatable

end NuDB
