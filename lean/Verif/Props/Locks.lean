import Verif.Spec.Locks
import Verif.Props.Concurrent
/-
C75: locks are never held during disk reads and writes; fetches are fully concurrent, inserts are serialized.
-/
namespace NuDB

open Spec Conc

section
variable {c : Cfg} {a : CreateArgs} {lf : Nat} {short : Prop} {s : Store} {fs : Fs} {m : Map} {acts : List Act}
  {x : Sys} {tr : List Ev} {t : Nat}

/-- C75, as far as it holds for reads: a thread that reads a file holds no lock exactly if it is a `fetch` that took the bucket from
the key file. Missing: the other reads, see `C75_insert_violated` and `C75_fetch_violated`. -/
theorem C75_partial (hc : Creatable a lf) (hs : Started c a short s fs m) (hr : run c acts (Sys.init s fs) = some (x, tr))
    {ins : Bool} (h : ReadsFile x t ins) : ¬ Locks x t ↔ ∃ key n g p, x.pc t = .fetchK key n g p := by
  obtain ⟨_, _, hinv⟩ := inv_reached hc hs hr
  have h1 := hinv.sh.iff t
  have h2 := hinv.ow t
  unfold Locks
  rw [h1, h2]
  cases h with
  | fetchC h => rw [h]; simp [isC]
  | fetchK h => rw [h]; simp [isC, holdsU]
  | insC h => rw [h]; simp [isC]
  | insS h => rw [h]; simp [isC, holdsU]
  | insK h => rw [h]; simp [isC, holdsU]

/-- C75 is false for `insert`: all its reads are made with `u_` locked, and no other `insert` can go on meanwhile. -/
theorem C75_insert_violated (hc : Creatable a lf) (hs : Started c a short s fs m) (hr : run c acts (Sys.init s fs) = some (x, tr))
    (h : ReadsFile x t true) : x.owner = some t ∧ ∀ u k v f, x.pc u = .ins1 k v → step c x (.go u f) = none := by
  obtain ⟨_, _, hinv⟩ := inv_reached hc hs hr
  have h2 : x.owner = some t := by
    rw [hinv.ow t]
    generalize e : true = ins at h
    cases h with
    | fetchC h => cases e
    | fetchK h => cases e
    | insC h => rw [h]; rfl
    | insS h => rw [h]; rfl
    | insK h => rw [h]; rfl
  refine ⟨h2, fun u k v f hu => ?_⟩
  simp only [step, threadStep, hu, h2]
  split <;> rfl

/-- C75 is false for `fetch`: if the bucket is in the cache, all reads are made with `m_` locked (shared), and meanwhile no `insert` and
no flush can complete. -/
theorem C75_fetch_violated (hc : Creatable a lf) (hs : Started c a short s fs m) (hr : run c acts (Sys.init s fs) = some (x, tr))
    {key blob : Bytes} {n : Nat} {p : Prog Bytes} (h : x.pc t = .fetchC key n blob p) :
    t ∈ x.shared ∧ (∀ u k v f, x.pc u = .ins3 k v → step c x (.go u f) = none) ∧
      ∀ r f, x.fl = .keys (.ret r) → step c x (.goF f) = none := by
  obtain ⟨_, _, hinv⟩ := inv_reached hc hs hr
  have h1 : t ∈ x.shared := by rw [hinv.sh.iff t, h]; rfl
  have h2 : x.shared ≠ [] := List.ne_nil_of_mem h1
  refine ⟨h1, fun u k v f hu => ?_, fun r f hf => ?_⟩
  · simp only [step, threadStep, hu, if_neg h2]
    split <;> rfl
  · simp only [step, flusherStep, hf, if_neg h2]
    split <;> rfl

private theorem threadStep_fs {f : Fault} {es : List Ev} {y : Sys} (hs : threadStep c x t f = some (y, es)) : y.fs = x.fs := by
  unfold threadStep fetchLocked insertLocked at hs
  repeat' split at hs
  all_goals first
    | cases hs; done
    | (cases hs; rfl)
    | (simp only [Option.map_some, Option.some.injEq, Prod.mk.injEq] at hs; obtain ⟨rfl, _⟩ := hs; rfl)
    | (simp only [Option.map_eq_some_iff, Prod.mk.injEq] at hs; obtain ⟨_, _, rfl, _⟩ := hs; rfl)
    | (simp at hs; done)

/-- C75, writes: threads that call `fetch` and `insert` change no file. The flusher, which does, never waits at an operation on a
file, and meanwhile no other thread waits for it: one that cannot go on waits for another thread that holds a lock. -/
theorem C75_writes (hc : Creatable a lf) (hs : Started c a short s fs m) (hr : run c acts (Sys.init s fs) = some (x, tr)) :
    (∀ t f y es, step c x (.go t f) = some (y, es) → y.fs = x.fs) ∧
    (FlushesFile x → ∃ z, step c x (.goF .none) = some z) ∧
    ∀ t, x.pc t ≠ .out → (∃ z, step c x (.go t .none) = some z) ∨ ∃ u, u ≠ t ∧ Locks x u := by
  obtain ⟨_, _, hinv⟩ := inv_reached hc hs hr
  refine ⟨fun t f y es h => ?_, fun h => ?_, fun t ht => ?_⟩
  · simp only [step] at h
    split at h
    · exact threadStep_fs h
    · cases h
  · cases h with
    | prep h h1 h2 => rename_i p; cases p <;> simp [step, Fault.mild, flusherStep, h] at h1 h2 ⊢
    | log h h1 h2 => rename_i p; cases p <;> simp [step, Fault.mild, flusherStep, h] at h1 h2 ⊢
    | keys h h1 h2 => rename_i p; cases p <;> simp [step, Fault.mild, flusherStep, h] at h1 h2 ⊢
  · rcases able_thread hinv ht with h | ⟨k, v, h1, h2⟩ | ⟨k, v, h1, h2⟩
    · exact .inl h
    · cases ho : x.owner with
      | none => exact absurd ho h2
      | some u =>
        refine .inr ⟨u, fun e => ?_, .inr ho⟩
        have := (hinv.ow u).1 ho
        rw [e, h1] at this; cases this
    · cases hl : x.shared with
      | nil => exact absurd hl h2
      | cons u l =>
        have hu : u ∈ x.shared := by rw [hl]; simp
        refine .inr ⟨u, fun e => ?_, .inl hu⟩
        have := (hinv.sh.iff u).1 hu
        rw [e, h1] at this; cases this

/-- C75, "fetches are fully concurrent": a thread in a call of `fetch` never waits for another thread. -/
theorem C75_fetches (hc : Creatable a lf) (hs : Started c a short s fs m) (hr : run c acts (Sys.init s fs) = some (x, tr))
    (h : Fetching x t) : ∃ z, step c x (.go t .none) = some z := by
  obtain ⟨_, _, hinv⟩ := inv_reached hc hs hr
  have key : ∀ q, x.pc t = q → q ≠ .out → (∀ k v, q ≠ .ins1 k v) → (∀ k v, q ≠ .ins3 k v) → ∃ z, step c x (.go t .none) = some z := by
    intro q e h0 h1 h3
    rcases able_thread hinv (t := t) (by rw [e]; exact h0) with h | ⟨k, v, h, _⟩ | ⟨k, v, h, _⟩
    · exact h
    · exact absurd (e.symm.trans h) (h1 k v)
    · exact absurd (e.symm.trans h) (h3 k v)
  cases h with
  | zero h => exact key _ h (by simp) (by simp) (by simp)
  | one h => exact key _ h (by simp) (by simp) (by simp)
  | cached h => exact key _ h (by simp) (by simp) (by simp)
  | file h => exact key _ h (by simp) (by simp) (by simp)

/-- C75, "inserts are serialized": at most one thread searches for its key on behalf of `insert`. -/
theorem C75_inserts (hc : Creatable a lf) (hs : Started c a short s fs m) (hr : run c acts (Sys.init s fs) = some (x, tr))
    {t u : Nat} (ht : ReadsFile x t true) (hu : ReadsFile x u true) : t = u := by
  have h1 := (C75_insert_violated hc hs hr ht).1
  rw [(C75_insert_violated hc hs hr hu).1] at h1
  exact (Option.some.inj h1).symm

end

/- Examples. -/

/-- A flush has put the changed buckets into the cache; thread 3 looks for a key in one of them, thread 1 inserts into another bucket and
thread 2 wants to insert. -/
def lockActs : List Act :=
  actsA ++ [.flush] ++ List.replicate 10 (.goF .none) ++ [.call 3 (.fetch [6, 1]), .go 3 .none, .go 3 .none] ++
  [.call 1 (.insert [1, 2] [1]), .go 1 .none, .go 1 .none, .go 1 .none, .call 2 (.insert [2, 2] [1]), .go 2 .none,
   .call 4 (.fetch [1, 2]), .go 4 .none, .go 4 .none]

def lockTest (x : Sys) : Bool :=
  match run sharedCfg lockActs x with
  | none => false
  | some (y, _) =>
    (match y.pc 3 with | .fetchC _ _ _ (.read .dat _ _ _) => true | _ => false) &&
    (match y.pc 1 with | .insK _ _ _ _ (.read .key _ _ _) => true | _ => false) &&
    (match y.pc 2 with | .ins1 _ _ => true | _ => false) &&
    (match y.pc 4 with | .fetchK _ _ _ (.read .key _ _ _) => true | _ => false) &&
    (match y.fl with | .log (.append .log _ _ _) => true | _ => false)

/-- The hypotheses of all theorems above are met in one state. -/
example : ∃ s fs m x tr, Started sharedCfg demoArgs False s fs m ∧ run sharedCfg lockActs (Sys.init s fs) = some (x, tr) ∧
    ReadsFile x 1 true ∧ ReadsFile x 3 false ∧ ReadsFile x 4 false ∧ (∃ k v, x.pc 2 = .ins1 k v) ∧
    (∃ key n blob p, x.pc 3 = .fetchC key n blob p) ∧ (∃ key n g p, x.pc 4 = .fetchK key n g p) ∧ FlushesFile x ∧ Fetching x 3 := by
  obtain ⟨s, fs, m, h, ht⟩ := demo_shared (P := lockTest) (by decide +kernel)
  unfold lockTest at ht
  split at ht
  · cases ht
  · rename_i y tr hr
    simp only [Bool.and_eq_true] at ht
    obtain ⟨⟨⟨⟨h1, h2⟩, h3⟩, h4⟩, h5⟩ := ht
    split at h1
    case h_2 => cases h1
    rename_i e1
    split at h2
    case h_2 => cases h2
    rename_i e2
    split at h3
    case h_2 => cases h3
    rename_i e3
    split at h4
    case h_2 => cases h4
    rename_i e4
    split at h5
    case h_2 => cases h5
    rename_i e5
    exact ⟨s, fs, m, y, tr, h, hr, .insK e2, .fetchC e1, .fetchK e4, ⟨_, _, e3⟩, ⟨_, _, _, _, e1⟩, ⟨_, _, _, _, e4⟩,
      .log e5 (by simp) (by simp), .cached e1⟩

end NuDB
