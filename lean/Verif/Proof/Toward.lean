import Verif.Proof.Blind
import Verif.Spec.Meanwhile
/-
Programs that only append to the data file: stopped earlier, they leave less of what they
leave when stopped later or not at all.
-/
namespace NuDB

open Spec

/-- `τ` stops later than `σ`, or not at all; `n` is the operation at which `σ` stops. -/
structure Later (n : Nat) (σ τ : Schedule) : Prop where
  before : ∀ i, i < n → σ i = .none ∧ τ i = .none
  at_ : ∃ k, σ n = .crash k ∧ (τ n = .none ∨ ∃ k', k ≤ k' ∧ τ n = .crash k')

/-- The content of the data file is an initial part of that of the other. -/
def DatLe (fs fs' : Fs) : Prop := ∃ f f', fs .dat = some f ∧ fs' .dat = some f' ∧ f.cur <+: f'.cur

theorem DatLe.refl {fs : Fs} {f : FileSt} (h : fs .dat = some f) : DatLe fs fs := ⟨f, f, h, h, List.prefix_refl _⟩
theorem DatLe.trans {a b d : Fs} (h : DatLe a b) (h' : DatLe b d) : DatLe a d := by
  obtain ⟨f, f1, h1, h2, h3⟩ := h
  obtain ⟨f2, f3, h4, h5, h6⟩ := h'
  rw [h2] at h4
  cases h4
  exact ⟨f, f3, h1, h5, h3.trans h6⟩
theorem DatLe.has {a b : Fs} (h : DatLe a b) : ∃ f, b .dat = some f := let ⟨_, f, _, h, _⟩ := h; ⟨f, h⟩
theorem DatLe.same {a b : Fs} {f : FileSt} (hf : a .dat = some f) (h : b .dat = a .dat) : DatLe a b :=
  ⟨f, f, hf, h.trans hf, List.prefix_refl _⟩

/-- `m` only appends to the data file. -/
structure Toward (m : M α) : Prop where
  grow : ∀ σ w f, w.fs .dat = some f → DatLe w.fs (m σ w).2.fs
  go : ∀ n σ τ w f, Later n σ τ → w.clock ≤ n → w.fs .dat = some f →
    DatLe (m σ w).2.fs (m τ w).2.fs ∧ ((m σ w = m τ w ∧ (m σ w).2.clock ≤ n) ∨ (m σ w).1 = .error .crash)

section
variable {q : Path} {α β : Type}

private theorem pureT {m : M α} (h : ∀ σ τ w, m σ w = m τ w) (h' : ∀ σ w, (m σ w).2.fs = w.fs ∧ (m σ w).2.clock = w.clock) :
    Toward m := by
  refine ⟨fun σ w f hf => by rw [(h' σ w).1]; exact .refl hf, fun n σ τ w f _ hn hf => ?_⟩
  refine ⟨?_, .inl ⟨h σ τ w, by rw [(h' σ w).2]; exact hn⟩⟩
  rw [(h' σ w).1, (h' τ w).1]
  exact .refl hf

theorem Toward.ret (a : α) : Toward (M.ret a) := pureT (fun _ _ _ => rfl) (fun _ _ => ⟨rfl, rfl⟩)
theorem Toward.raise (x : Exc) : Toward (M.raise x : M α) := pureT (fun _ _ _ => rfl) (fun _ _ => ⟨rfl, rfl⟩)
theorem Toward.fail (e : Err) : Toward (M.fail e : M α) := pureT (fun _ _ _ => rfl) (fun _ _ => ⟨rfl, rfl⟩)
theorem Toward.lift (r : Res α) : Toward (M.lift r) := pureT (fun _ _ _ => rfl) (fun _ _ => ⟨rfl, rfl⟩)

theorem Toward.bind {m : M α} {k : α → M β} (h : Toward m) (hk : ∀ a, Toward (k a)) : Toward (m >>= k) := by
  refine ⟨fun σ w f hf => ?_, fun n σ τ w f hl hn hf => ?_⟩
  · show DatLe w.fs (M.bind m k σ w).2.fs
    have h1 := h.grow σ w f hf
    unfold M.bind
    cases e : m σ w with
    | mk r w' =>
      rw [e] at h1
      cases r with
      | error x => exact h1
      | ok a =>
        obtain ⟨g, hg⟩ := h1.has
        exact h1.trans ((hk a).grow σ w' g hg)
  · show DatLe (M.bind m k σ w).2.fs (M.bind m k τ w).2.fs ∧
      ((M.bind m k σ w = M.bind m k τ w ∧ (M.bind m k σ w).2.clock ≤ n) ∨ (M.bind m k σ w).1 = .error .crash)
    obtain ⟨h1, h2⟩ := h.go n σ τ w f hl hn hf
    have h3 := h.grow τ w f hf
    unfold M.bind
    rcases h2 with ⟨h2, h4⟩ | h2
    · rw [← h2] at h3 ⊢
      cases e : m σ w with
      | mk r w' =>
        rw [e] at h3 h4
        obtain ⟨g, hg⟩ := h3.has
        cases r with
        | error x => exact ⟨.refl hg, .inl ⟨rfl, h4⟩⟩
        | ok a => exact (hk a).go n σ τ w' g hl h4 hg
    · cases e : m σ w with
      | mk r w' =>
        rw [e] at h1 h2
        simp only at h2
        subst h2
        refine ⟨?_, .inr rfl⟩
        cases e' : m τ w with
        | mk r' w'' =>
          rw [e'] at h1 h3
          cases r' with
          | error x => exact h1
          | ok a =>
            obtain ⟨g, hg⟩ := h3.has
            exact h1.trans ((hk a).grow τ w'' g hg)

theorem Toward.attempt {m : M α} (h : Toward m) : Toward (M.attempt m) := by
  have hfs : ∀ σ w, (M.attempt m σ w).2 = (m σ w).2 := by
    intro σ w
    unfold M.attempt
    cases m σ w with
    | mk r w' =>
      cases r with
      | ok a => rfl
      | error x => cases x <;> rfl
  refine ⟨fun σ w f hf => by rw [hfs]; exact h.grow σ w f hf, fun n σ τ w f hl hn hf => ?_⟩
  obtain ⟨h1, h2⟩ := h.go n σ τ w f hl hn hf
  rw [hfs, hfs]
  refine ⟨h1, ?_⟩
  rcases h2 with ⟨h2, h3⟩ | h2
  · exact .inl ⟨by unfold M.attempt; rw [h2], h3⟩
  · refine .inr ?_
    unfold M.attempt
    cases e : m σ w with
    | mk r w' =>
      rw [e] at h2
      simp only at h2
      subst h2
      rfl

theorem Toward.fileOp {ok : Fs → Except Exc α × Fs} {part : Fs → Nat → Fs}
    (h0 : ∀ fs f k, fs .dat = some f → DatLe fs (part fs k))
    (h1 : ∀ fs f k k', fs .dat = some f → k ≤ k' → DatLe (part fs k) (part fs k'))
    (h2 : ∀ fs f k, fs .dat = some f → DatLe (part fs k) (ok fs).2) : Toward (fileOp ok part) := by
  refine ⟨fun σ w f hf => ?_, fun n σ τ w f hl hn hf => ?_⟩
  · unfold NuDB.fileOp
    split
    · exact (h0 w.fs f 0 hf).trans (h2 w.fs f 0 hf)
    · exact h0 _ f _ hf
    · exact h0 _ f _ hf
  · unfold NuDB.fileOp
    rcases Nat.lt_or_ge w.clock n with hc | hc
    · obtain ⟨a, b⟩ := hl.before _ hc
      rw [a, b]
      obtain ⟨g, hg⟩ := (h2 w.fs f 0 hf).has
      exact ⟨.refl hg, .inl ⟨rfl, hc⟩⟩
    · have : w.clock = n := by omega
      rw [this]
      obtain ⟨k, a, b⟩ := hl.at_
      rw [a]
      refine ⟨?_, .inr rfl⟩
      rcases b with b | ⟨k', hk, b⟩
      · rw [b]; exact h2 _ f k hf
      · rw [b]; exact h1 _ f _ _ hf hk

private theorem fileOp_reads {ok : Fs → Except Exc α × Fs} (h : ∀ fs, (ok fs).2 = fs) :
    Toward (fileOp ok (fun fs _ => fs)) := by
  refine Toward.fileOp (fun fs f _ hf => .refl hf) (fun fs f _ _ hf _ => .refl hf) (fun fs f _ hf => ?_)
  rw [h]
  exact .refl hf

theorem Toward.fSize : Toward (fSize q) := by
  apply fileOp_reads
  intro fs
  split <;> rfl

theorem Toward.fRead {o n : Nat} : Toward (fRead q o n) := by
  apply fileOp_reads
  intro fs
  split
  · split <;> rfl
  · rfl

/-- Operations on other files. -/
private theorem other {fs : Fs} {x : Option FileSt} (hq : q ≠ .dat) : (fs.set q x) .dat = fs .dat := by
  unfold Fs.set
  rw [if_neg (fun h => hq h.symm)]

theorem Toward.fWrite {o : Nat} {bs : Bytes} (hq : q ≠ .dat) : Toward (fWrite q o bs) := by
  have hp : ∀ (fs : Fs) k, (match fs q with
    | some f => fs.set q (some (f.push (.write o (bs.take k))))
    | none => fs) .dat = fs .dat := by
    intro fs k
    cases fs q with
    | none => rfl
    | some g => exact other hq
  refine Toward.fileOp (fun fs f k hf => .same hf (hp fs k)) (fun fs f k k' hf _ => ?_) (fun fs f k hf => ?_)
  · exact .same ((hp fs k).trans hf) ((hp fs k').trans (hp fs k).symm)
  · refine .same ((hp fs k).trans hf) (.trans ?_ (hp fs k).symm)
    cases fs q with
    | none => rfl
    | some g => exact other hq

theorem Toward.fTrunc {n : Nat} (hq : q ≠ .dat) : Toward (fTrunc q n) := by
  refine Toward.fileOp (fun fs f _ hf => .refl hf) (fun fs f _ _ hf _ => .refl hf) (fun fs f _ hf => .same hf ?_)
  cases fs q with
  | none => rfl
  | some g => exact other hq

theorem Toward.fSync : Toward (fSync q) := by
  refine Toward.fileOp (fun fs f _ hf => .refl hf) (fun fs f _ _ hf _ => .refl hf) (fun fs f _ hf => ?_)
  cases hq : fs q with
  | none => exact .refl hf
  | some g =>
    by_cases h : q = .dat
    · subst h
      rw [hf] at hq
      cases hq
      refine ⟨f, f.synced, hf, by simp [Fs.set], ?_⟩
      rw [synced_eq, cur_clean]
      exact List.prefix_refl _
    · exact .same hf (other h)

theorem Toward.fAppend {o : Nat} {bs : Bytes} : Toward (fAppend q o bs) := by
  by_cases h : q = .dat
  · subst h
    have hcur : ∀ (f : FileSt) b, o = f.cur.length → (f.push (.write o b)).cur = f.cur ++ b := by
      intro f b ho
      rw [cur_push, ho]
      exact writeAt_end _ _
    have hset : ∀ (fs : Fs) x, (fs.set .dat x) .dat = x := fun fs x => by simp [Fs.set]
    refine Toward.fileOp (fun fs f k hf => ?_) (fun fs f k k' hf hk => ?_) (fun fs f k hf => ?_)
    · simp only [hf]
      split
      · rename_i ho
        exact ⟨f, _, hf, hset _ _, by rw [hcur f _ ho]; exact List.prefix_append _ _⟩
      · exact .refl hf
    · simp only [hf]
      split
      · rename_i ho
        refine ⟨_, _, hset _ _, hset _ _, ?_⟩
        rw [hcur f _ ho, hcur f _ ho]
        refine (List.prefix_append_right_inj _).mpr ?_
        exact List.take_prefix_take_left hk
      · exact .refl hf
    · simp only [hf]
      by_cases ho : o = f.cur.length
      · rw [if_pos ho, if_pos ho]
        refine ⟨_, _, hset fs _, hset fs _, ?_⟩
        rw [hcur f _ ho, hcur f _ ho]
        exact (List.prefix_append_right_inj _).mpr (List.take_prefix _ _)
      · rw [if_neg ho, if_neg ho]
        exact .refl hf
  · have hp : ∀ (fs : Fs) k, (match fs q with
      | some f => if o = f.cur.length then fs.set q (some (f.push (.write o (bs.take k)))) else fs
      | none => fs) .dat = fs .dat := by
      intro fs k
      cases fs q with
      | none => rfl
      | some g =>
        dsimp only
        split
        · exact other h
        · rfl
    refine Toward.fileOp (fun fs f k hf => .same hf (hp fs k)) (fun fs f k k' hf _ => ?_) (fun fs f k hf => ?_)
    · exact .same ((hp fs k).trans hf) ((hp fs k').trans (hp fs k).symm)
    · refine .same ((hp fs k).trans hf) (.trans ?_ (hp fs k).symm)
      cases fs q with
      | none => rfl
      | some g =>
        dsimp only
        split
        · exact other h
        · rfl

end

/-- Apply the rules above and rules for given functions. -/
local macro "toward" "[" ts:term,* "]" : tactic => do
  let ts := ts.getElems
  let mut alts ← `(tactic| fail)
  for t in ts do
    alts ← `(tactic| first | exact $t | $alts:tactic)
  `(tactic| repeat' (first
    | $alts:tactic
    | assumption
    | exact Toward.ret _ | exact Toward.raise _ | exact Toward.fail _ | exact Toward.lift _
    | exact Toward.fSize | exact Toward.fRead
    | exact Toward.fWrite (by decide) | exact Toward.fAppend | exact Toward.fSync | exact Toward.fTrunc (by decide)
    | apply Toward.bind | apply Toward.attempt | intro _ | dsimp only | split))

section
variable {c : Cfg} {q : Path}

theorem Toward.readFile {b : Bkt} {o : Nat} : Toward (b.readFile q o) := by unfold Bkt.readFile; toward []
theorem Toward.writeFile {b : Bkt} {o : Nat} : Toward (b.writeFile .key o) := by unfold Bkt.writeFile; toward []
theorem Toward.writerFlush {w : Writer} : Toward w.flush := by unfold Writer.flush; toward []
theorem Toward.append {w : Writer} {bs : Bytes} : Toward (w.append bs) := by
  unfold Writer.append; toward [Toward.writerFlush]
theorem Toward.maybeSpill {b : Bkt} {w : Writer} : Toward (maybeSpill b w) := by
  unfold NuDB.maybeSpill; toward [Toward.append]

theorem Toward.splitTmp {n1 n2 buckets modulus : Nat} {tmp : Bkt} :
    ∀ fuel i b1 b2 w, Toward (splitTmp n1 n2 buckets modulus tmp fuel i b1 b2 w) := by
  intro fuel
  induction fuel with
  | zero => intro i b1 b2 w; exact Toward.raise _
  | succ n ih => intro i b1 b2 w; unfold NuDB.splitTmp; toward [ih _ _ _ _, Toward.maybeSpill]

theorem Toward.splitSpills {cap n1 n2 buckets modulus : Nat} :
    ∀ fuel spill b1 b2 tmp w, Toward (splitSpills cap n1 n2 buckets modulus fuel spill b1 b2 tmp w) := by
  intro fuel
  induction fuel with
  | zero => intro i b1 b2 tmp w; exact Toward.raise _
  | succ n ih =>
    intro i b1 b2 tmp w
    unfold NuDB.splitSpills; toward [ih _ _ _ _ _, Toward.splitTmp _ _ _ _ _, Toward.writerFlush, Toward.readFile]

theorem Toward.split {cap n1 n2 buckets modulus : Nat} {b1 b2 tmp : Bkt} {w : Writer} :
    Toward (split cap n1 n2 buckets modulus b1 b2 tmp w) := by
  unfold NuDB.split; toward [Toward.splitSpills _ _ _ _ _ _]

theorem Toward.load {bs n : Nat} {c1 c0 : Cache} : Toward (load c bs n c1 c0) := by
  unfold NuDB.load; toward [Toward.readFile]

theorem Toward.appendData : ∀ (p : Pool) (w : Writer), Toward (appendData p w) := by
  intro p
  induction p with
  | nil => intro w; exact Toward.ret _
  | cons it p ih => intro w; unfold NuDB.appendData; toward [ih _, Toward.append]

theorem Toward.commitInserts {kh : KeyHeader} {t : Nat} :
    ∀ (l : List (Item × Nat)) (x : Work), Toward (commitInserts c kh t l x) := by
  have h1 : ∀ x, Toward (commitSplit c kh t x) := by
    intro x; unfold commitSplit; toward [Toward.load, Toward.split]
  have h2 : ∀ it off x, Toward (commitInsert c kh t it off x) := by
    intro it off x; unfold commitInsert; toward [h1 _, Toward.load, Toward.maybeSpill]
  intro l
  induction l with
  | nil => intro x; exact Toward.ret _
  | cons a l ih => intro x; unfold NuDB.commitInserts; toward [h2 _ _ _, ih _]

theorem Toward.commitPrepare {s : Store} : Toward (commitPrepare c s) := by
  unfold NuDB.commitPrepare
  toward [Toward.appendData _ _, Toward.commitInserts _ _, Toward.writerFlush]

theorem Toward.logRecords {bs : Nat} : ∀ (l : List (Nat × Bytes)) (w : Writer), Toward (logRecords bs l w) := by
  intro l
  induction l with
  | nil => intro w; exact Toward.ret _
  | cons a l ih => intro w; unfold NuDB.logRecords; toward [ih _, Toward.append]

theorem Toward.keyBlocks {bs : Nat} : ∀ (l : List (Nat × Bytes)), Toward (keyBlocks bs l) := by
  intro l
  induction l with
  | nil => exact Toward.ret _
  | cons a l ih => unfold NuDB.keyBlocks; toward [ih, Toward.writeFile]

theorem Toward.commitFinish {bs : Nat} {c0 c1 : Cache} : Toward (commitFinish c bs c0 c1) := by
  unfold NuDB.commitFinish NuDB.commitLog
  toward [Toward.logRecords _ _, Toward.keyBlocks _, Toward.writerFlush]

theorem Toward.commit {s : Store} : Toward (commit c s) := by
  unfold NuDB.commit
  toward [Toward.commitPrepare, Toward.commitFinish]

theorem Toward.flush {s : Store} : Toward (flush c s) := by
  unfold NuDB.flush; toward [Toward.commit]

end

end NuDB
