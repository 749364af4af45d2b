import Verif.Proof.ConcSafe
import Verif.Proof.Lived
import Verif.Props.Concurrent
/-
C53: the process dies, or power fails, while several threads use the store. See
Model/Concurrent for the executions and Spec/Concurrent for the notions used. `x.seen` are the
files at a moment of an execution, including the part of the current write that has been
carried out.
-/
namespace NuDB

open Spec Conc

section
variable {c : Cfg} {a : CreateArgs} {lf : Nat} {short : Prop} {s : Store} {fs fs₁ fs' : Fs} {m : Map}
  {acts : List Act} {x : Sys} {tr : List Ev} {t : Nat} {k v : Bytes} {kept pre mid post : List Ev}

/-- C53: at any moment of any execution, if the process dies or power fails, and recovery is
interrupted any number of times, then the files hold exactly the pairs that were present at some
earlier moment: at the beginning, or when some flush started. If a flush has completed without
error, and `kept` happened before it started, then this moment is not before that. -/
theorem C53_flushed (hc : Creatable a lf) (hs : Started c a short s fs m)
    (hr : run c acts (Sys.init s fs) = some (x, tr)) (hk : kept = [] ∨ Completed c acts (Sys.init s fs) kept)
    (hp : Restart x.seen fs₁) (ha : Attempts c False fs₁ fs') :
    ∃ now, kept <+: now ∧ now <+: tr ∧ (now = [] ∨ Began c acts (Sys.init s fs) now) ∧
      Answers c a.keySize fs' (contents m now) := by
  obtain ⟨lo, nx, hinv, h1, h2⟩ := inv_moments (inv_init hc hs) hr
  obtain ⟨now, n1, n2, n3⟩ := ((hinv.safe.restart hp).attempts ha).answers
  refine ⟨now, ?_, n1, h1 now n1 n2, n3⟩
  rcases hk with rfl | hk
  · exact List.nil_prefix
  · refine List.prefix_of_prefix_length_le (hk.prefix hr) n1 ?_
    have := h2 _ hk
    have := hinv.bnd.1
    rcases n2 with n2 | n2 <;> omega

/-- C53, without regard to completed flushes. -/
theorem C53 (hc : Creatable a lf) (hs : Started c a short s fs m)
    (hr : run c acts (Sys.init s fs) = some (x, tr)) (hp : Restart x.seen fs₁) (ha : Attempts c False fs₁ fs') :
    ∃ now, now <+: tr ∧ (now = [] ∨ Began c acts (Sys.init s fs) now) ∧ Answers c a.keySize fs' (contents m now) := by
  obtain ⟨now, -, h1, h2, h3⟩ := C53_flushed hc hs hr (.inl rfl) hp ha
  exact ⟨now, h1, h2, h3⟩

/-- C53: a pair whose insertion returned before a flush started that completed is not lost. -/
theorem C53_durable (hc : Creatable a lf) (hs : Started c a short s fs m)
    (hr : run c acts (Sys.init s fs) = some (x, tr)) (hk : Completed c acts (Sys.init s fs) kept)
    (hp : Restart x.seen fs₁) (ha : Attempts c False fs₁ fs')
    (hi : Call kept t (.insert k v) .done pre mid post) :
    ∃ m', Answers c a.keySize fs' m' ∧ m' k = some v := by
  obtain ⟨now, g1, g2, -, g3⟩ := C53_flushed hc hs hr (.inr hk) hp ha
  refine ⟨_, g3, ?_⟩
  obtain ⟨a₁, a₂, a₃, x₁, x₂, tr₂, e1, e2, -⟩ := hk
  exact (C36_calls hc hs hr).2.stays_to g2 g1 (C37_once hc hs e2 hi).2.1

/-- C53: even without a flush, what the files held at the beginning is not lost. -/
theorem C53_old (hc : Creatable a lf) (hs : Started c a short s fs m)
    (hr : run c acts (Sys.init s fs) = some (x, tr)) (hp : Restart x.seen fs₁) (ha : Attempts c False fs₁ fs')
    (hk : m k = some v) : ∃ m', Answers c a.keySize fs' m' ∧ m' k = some v := by
  obtain ⟨now, h1, -, h2⟩ := C53 hc hs hr hp ha
  exact ⟨_, h2, (C36_calls hc hs hr).2.stays_to h1 (List.nil_prefix) hk⟩

/-- C53: nothing is invented: every pair in the files was there at the beginning or was passed to
an `insert`. -/
theorem C53_only (hc : Creatable a lf) (hs : Started c a short s fs m)
    (hr : run c acts (Sys.init s fs) = some (x, tr)) (hp : Restart x.seen fs₁) (ha : Attempts c False fs₁ fs') :
    ∃ m', Answers c a.keySize fs' m' ∧
      ∀ k v, m' k = some v → m k = some v ∨ ∃ t, .call t (.insert k v) ∈ tr := by
  obtain ⟨now, h1, -, h2⟩ := C53 hc hs hr hp ha
  refine ⟨_, h2, fun k v hkv => ?_⟩
  exact (C36_calls hc hs hr).2.passed h1 hkv

end

/- Examples: two threads insert the same key, a flush starts and completes, a third thread inserts
another key, a second flush starts and dies while it writes the key file. -/

def actsD : List Act := .flush :: List.replicate 21 (.goF .none)

def actsE : List Act :=
  [.call 3 (.insert [9, 9] [91])] ++ List.replicate 7 (.go 3 .none) ++ [.flush] ++ List.replicate 12 (.goF .none) ++ [.part 40]

def trE : List Ev := [.call 3 (.insert [9, 9] [91]), .added 3 [9, 9] [91], .ret 3 .done]

/-- The flusher has written a part of a bucket. -/
def tornE (y : Sys) : Bool :=
  y.wr == 40 && (match y.fl with | .keys (.write .key 208 b _) => b.length == 104 | _ => false)

def idleD (y : Sys) : Bool := y.s.ec == none && (match y.fl with | .idle => true | _ => false)

def crashTest (x : Sys) : Bool :=
  match run sharedCfg actsA x with
  | none => false
  | some (x, tr) => tr == trA &&
  match run sharedCfg actsD x with
  | none => false
  | some (x, tr) => tr == [] && idleD x &&
  match run sharedCfg actsE x with
  | none => false
  | some (x, tr) => tr == trE && tornE x

theorem crash_runs : ∃ s fs m, Started sharedCfg demoArgs False s fs m ∧ ∃ xA xD xE,
    run sharedCfg actsA (Sys.init s fs) = some (xA, trA) ∧ run sharedCfg actsD xA = some (xD, []) ∧
    run sharedCfg actsE xD = some (xE, trE) ∧ xD.fl = .idle ∧ xD.s.ec = none ∧ tornE xE = true := by
  obtain ⟨s, fs, m, h, ht⟩ := demo_shared (P := crashTest) (by decide +kernel)
  refine ⟨s, fs, m, h, ?_⟩
  unfold crashTest at ht
  split at ht
  · cases ht
  · rename_i x tr h1
    simp only [Bool.and_eq_true, beq_iff_eq] at ht
    obtain ⟨rfl, ht⟩ := ht
    split at ht
    · cases ht
    · rename_i x2 tr2 h2
      simp only [Bool.and_eq_true, beq_iff_eq] at ht
      obtain ⟨⟨rfl, hb⟩, ht⟩ := ht
      split at ht
      · cases ht
      · rename_i x3 tr3 h3
        simp only [Bool.and_eq_true, beq_iff_eq] at ht
        obtain ⟨rfl, hc⟩ := ht
        simp only [idleD, Bool.and_eq_true, beq_iff_eq] at hb
        refine ⟨_, _, _, h1, h2, h3, ?_, hb.1, hc⟩
        obtain ⟨_, hb⟩ := hb
        split at hb
        · assumption
        · cases hb

/-- The first flush completes, the second one dies. -/
theorem crash_completed : ∃ s fs m x, Started sharedCfg demoArgs False s fs m ∧
    run sharedCfg (actsA ++ (actsD ++ actsE)) (Sys.init s fs) = some (x, trA ++ ([] ++ trE)) ∧ tornE x = true ∧
    Completed sharedCfg (actsA ++ (actsD ++ actsE)) (Sys.init s fs) trA := by
  obtain ⟨s, fs, m, h, xA, xD, xE, h1, h2, h3, h4, h5, h6⟩ := crash_runs
  exact ⟨s, fs, m, xE, h, run_append h1 (run_append h2 h3), h6, actsA, List.replicate 21 (.goF .none), actsE, xA, xD, [],
    rfl, h1, h2, h4, h5⟩

/-- The call of the winner. -/
theorem trA_call : Call trA 1 (.insert [6, 6] [61]) .done [] [.call 2 (.insert [6, 6] [62]), .added 1 [6, 6] [61]]
    [.ret 2 (.error .key_exists)] := by
  refine ⟨rfl, ?_⟩
  intro e he
  simp only [List.mem_cons, List.not_mem_nil, or_false] at he
  rcases he with rfl | rfl <;> simp

/- The hypotheses of C53, C53_flushed, C53_durable and C53_only; recovery dies in its tenth file
operation. -/
example : ∃ s fs m x fs' pre mid post, Started sharedCfg demoArgs False s fs m ∧
    run sharedCfg (actsA ++ (actsD ++ actsE)) (Sys.init s fs) = some (x, trA ++ ([] ++ trE)) ∧ tornE x = true ∧
    Completed sharedCfg (actsA ++ (actsD ++ actsE)) (Sys.init s fs) trA ∧
    Restart x.seen x.seen ∧ Attempts sharedCfg False x.seen fs' ∧
    Call trA 1 (.insert [6, 6] [61]) .done pre mid post := by
  obtain ⟨s, fs, m, x, h, h1, h2, h3⟩ := crash_completed
  refine ⟨s, fs, m, x, _, _, _, _, h, h1, h2, h3, .inl rfl,
    .more (.none _) (faultAt 9 (.crash 3) ⟨x.seen, 0, []⟩) (w := ⟨x.seen, 0, []⟩) ?_ rfl rfl (.inl rfl), trA_call⟩
  exact .inl (by intro i k; unfold faultAt; split <;> simp)

/- The conclusion for this example: after the crash the value of the winner is found. -/
example : ∃ x : Sys, tornE x = true ∧ ∃ m', Answers sharedCfg 2 x.seen m' ∧ m' [6, 6] = some [61] := by
  obtain ⟨s, fs, m, x, h, h1, h2, h3⟩ := crash_completed
  exact ⟨x, h2, C53_durable (a := demoArgs) (fs₁ := x.seen) demo_creatable h h1 h3 (.inl rfl) (.none _) trA_call⟩

/- The hypotheses of C53_old: the second pair of the demonstration. -/
example : ∃ s fs m x, Started sharedCfg demoArgs False s fs m ∧ m [1, 2] = some [20, 21] ∧
    run sharedCfg (actsA ++ (actsD ++ actsE)) (Sys.init s fs) = some (x, trA ++ ([] ++ trE)) ∧ tornE x = true ∧
    Restart x.seen x.seen ∧ Attempts sharedCfg False x.seen x.seen := by
  obtain ⟨s, fs, m, h, ht⟩ := demo_shared (P := fun x =>
    (match run sharedCfg ([.call 2 (.fetch [1, 2])] ++ List.replicate 7 (.go 2 .none)) x with
    | some (_, tr) => tr == [.call 2 (.fetch [1, 2]), .ret 2 (.found [20, 21])]
    | none => false) &&
    (match run sharedCfg (actsA ++ (actsD ++ actsE)) x with
    | some (x, tr) => tr == trA ++ ([] ++ trE) && tornE x
    | none => false)) (by decide +kernel)
  rw [Bool.and_eq_true] at ht
  obtain ⟨ht, ht'⟩ := ht
  split at ht
  · rename_i x tr hr
    simp only [beq_iff_eq] at ht
    subst ht
    split at ht'
    · rename_i x' tr' hr'
      simp only [beq_iff_eq, Bool.and_eq_true] at ht'
      obtain ⟨rfl, ht'⟩ := ht'
      refine ⟨s, fs, m, x', h, ?_, hr', ht', .inl rfl, .none _⟩
      rcases C36 (pre := []) (mid := []) (post := []) demo_creatable h hr ⟨rfl, by intro e he; cases he⟩ with
        ⟨now, h1, h2, h3⟩ | ⟨_, h⟩
      · have : contents m now = m := by
          obtain ⟨l, hl⟩ := h2
          rcases now with _ | ⟨e, _ | ⟨e', now⟩⟩ <;> simp at hl
          · rfl
          · obtain ⟨rfl, _⟩ := hl; rfl
        rw [this] at h3
        split at h3 <;> cases h3
        assumption
      · cases h
    · cases ht'
  · cases ht

end NuDB
