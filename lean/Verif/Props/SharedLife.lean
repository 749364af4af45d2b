import Verif.Props.ConcCrash
import Verif.Props.Lifetime
/-
C54: several threads may use the store at any time in the life of a database, and the process may
die meanwhile. Life goes on: the database is opened again, used by one thread or by several, rebuilt
by `rekey`, and so on. See Spec/Lifetime for the notions used.
-/
namespace NuDB

open Spec Conc

section
variable {c : Cfg} {n bs : Nat} {short : Prop} {ph : Phase} {s : Store} {fs fs₁ fs' : Fs} {es e₁ e₂ e₃ : List Change}
  {acts : List Act} {x : Sys} {tr kept pre mid post : List Ev} {t : Nat} {k v : Bytes} {sys : Option Store × Fs}

/-- C54: whenever several threads start to use the store, what they observe is right, with regard to
the pairs that the store held then. -/
theorem C54_calls (h : Lifetime c n short (.ready bs) (some s, fs) es) (he : s.ec = none) (hp : s.p1 = [])
    (hr : run c acts (Sys.init s fs) = some (x, tr)) :
    ∃ m, Lived es (.opened m Map.empty) ∧ Lookups c n s fs m ∧ Session m (Faults acts) tr := by
  obtain ⟨st, h1, cf, all, -, rfl, rfl, hR⟩ := lifetime_held h
  obtain ⟨m, rfl, -, hinv, hL⟩ := rel_start hR he hp
  exact ⟨m, h1, hL, session_right hinv hr⟩

/-- C54: if the process dies meanwhile, or power fails, and recovery is interrupted any number of
times, then the files hold the pairs that were present at the beginning, or when some flush
started, but not before a flush started that has completed. -/
theorem C54_restart (h : Lifetime c n short (.ready bs) (some s, fs) es) (he : s.ec = none) (hp : s.p1 = [])
    (hr : run c acts (Sys.init s fs) = some (x, tr)) (hk : kept = [] ∨ Completed c acts (Sys.init s fs) kept)
    (hs : Restart x.seen fs₁) (ha : Attempts c False fs₁ fs') :
    ∃ m now, Lived es (.opened m Map.empty) ∧ kept <+: now ∧ now <+: tr ∧
      (now = [] ∨ Began c acts (Sys.init s fs) now) ∧ Answers c n fs' (contents m now) := by
  obtain ⟨st, g, cf, all, -, rfl, rfl, hR⟩ := lifetime_held h
  obtain ⟨m, rfl, -, hinv, -⟩ := rel_start hR he hp
  obtain ⟨lo, nx, hinv, h1, h2⟩ := inv_moments hinv hr
  obtain ⟨now, n1, n2, n3⟩ := ((hinv.safe.restart hs).attempts ha).answers
  refine ⟨m, now, g, ?_, n1, h1 now n1 n2, n3⟩
  rcases hk with rfl | hk
  · exact List.nil_prefix
  · refine List.prefix_of_prefix_length_le (hk.prefix hr) n1 ?_
    have := h2 _ hk
    have := hinv.bnd.1
    rcases n2 with n2 | n2 <;> omega

/-- C54: a pair that some thread inserted is found, whatever happens later except failures and
deaths. -/
theorem C54_found {d : Bool} (h : Lifetime c n short ph (some s, fs) (e₁ ++ [.shared d kept tr] ++ e₂))
    (hi : Call tr t (.insert k v) .done pre mid post) (hk : ∀ e ∈ e₂, KeptBy e) (hl : k.length = n)
    (he : s.ec = none) (w : World) (hw : w.fs = fs) : (fetch c s k calm w).1 = .ok v := by
  obtain ⟨d, b, h1, h2⟩ := C52_lookups h he
  have h3 : Map.union d b k = some v := by
    refine sure_from h1 ?_ hk
    intro st hst
    obtain ⟨st₀, -, hst⟩ := lived_last hst
    cases hst with
    | shared hs h₁ h₂ hb =>
      show Map.union _ _ k = _
      rw [hb]
      exact hs.inserted hi
  rw [h2 w hw k hl, h3]

/-- C54: a pair that some thread inserted is in the files for ever as soon as a flush has completed
that started later, be it in the same session ... -/
theorem C54_durable {d : Bool} {e : Change} (h : Lifetime c n short (.ready bs) sys (e₁ ++ [e] ++ e₂))
    (he : e = .shared d kept tr ∨ e = .ended d kept tr) (hi : Call kept t (.insert k v) .done pre mid post)
    (hs : Restart sys.2 fs') : ∃ mp, Answers c n fs' mp ∧ mp k = some v := by
  obtain ⟨st, mp, h1, h2, h3⟩ := C52_restart h hs
  refine ⟨mp, h2, (durable_from h1 ?_).files h3⟩
  intro st hst
  obtain ⟨st₀, -, hst⟩ := lived_last hst
  have key : ∀ {m : Map} {now : List Ev}, Session m (d = true) tr → kept <+: now → now <+: tr → contents m now k = some v :=
    fun hS hkn hn => hS.added.stays_to hn hkn ((hS.prefix (hkn.trans hn)).inserted hi)
  rcases he with rfl | rfl
  · cases hst with
    | shared hS h₁ h₂ hb => exact key hS h₁ h₂
  · cases hst with
    | ended hS h₁ h₂ h₃ h₄ => exact ⟨key hS h₁ h₂, key hS h₃ h₄⟩

/-- ... or later. -/
theorem C54_flushed {d y : Bool} {op : Op} (h : Lifetime c n short (.ready bs) sys
      (e₁ ++ [.shared d kept tr] ++ e₂ ++ [.used (.call op .done y)] ++ e₃))
    (hi : Call tr t (.insert k v) .done pre mid post) (hk : ∀ e ∈ e₂, KeptBy e) (hop : op = .flush ∨ op = .close)
    (hs : Restart sys.2 fs') : ∃ mp, Answers c n fs' mp ∧ mp k = some v := by
  obtain ⟨st, mp, h1, h2, h3⟩ := C52_restart h hs
  refine ⟨mp, h2, (durable_flush h1 (fun st hst => sure_from hst ?_ hk) hop).files h3⟩
  intro st hst
  obtain ⟨st₀, -, hst⟩ := lived_last hst
  cases hst with
  | shared hs h₁ h₂ hb =>
    show Map.union _ _ k = _
    rw [hb]
    exact hs.inserted hi

/-- C54: nothing is invented: whatever is found was passed to an `insert` ... -/
theorem C54_only (h : Lifetime c n short ph (some s, fs) es) (he : s.ec = none) (w : World) (hw : w.fs = fs)
    (hl : k.length = n) (hf : (fetch c s k calm w).1 = .ok v) : ∃ e ∈ es, Passed k v e := by
  obtain ⟨d, b, h1, h2⟩ := C52_lookups h he
  rw [h2 w hw k hl] at hf
  refine possible_passed h1 (.inr ?_)
  split at hf
  · rename_i e; cases hf; exact e
  · cases hf

/-- ... also after a crash. -/
theorem C54_only_restart (h : Lifetime c n short (.ready bs) sys es) (hs : Restart sys.2 fs') :
    ∃ mp, Answers c n fs' mp ∧ ∀ k v, mp k = some v → ∃ e ∈ es, Passed k v e := by
  obtain ⟨st, mp, h1, h2, h3⟩ := C52_restart h hs
  refine ⟨mp, h2, fun k v hkv => possible_passed h1 ?_⟩
  cases st with
  | opened d b => rw [show mp = d from h3] at hkv; exact .inl hkv
  | failed m₀ m₁ =>
    rcases h3 with rfl | rfl
    · exact .inl hkv
    · exact .inr hkv
  | closed m₀ m₁ =>
    rcases h3 with rfl | rfl
    · exact .inl hkv
    · exact .inr hkv

end

/- Examples: two threads insert the same key; a flush completes. Later a third thread inserts another
key, and the process dies during a flush. The database is opened again. -/

private def out (q : Pc) : Bool := match q with | .out => true | _ => false

private theorem out_iff {q : Pc} (h : out q = true) : q = .out := by
  unfold out at h
  split at h
  · rfl
  · cases h

def restTest (x : Sys) : Bool := idleD x && out (x.pc 1) && out (x.pc 2)

def lifeTest (x : Sys) : Bool :=
  match run sharedCfg actsA x with
  | none => false
  | some (x, tr) => tr == trA &&
  match run sharedCfg actsD x with
  | none => false
  | some (x, tr) => tr == [] && restTest x && x.s.p1.isEmpty &&
  match run sharedCfg actsE (Sys.init x.s x.fs) with
  | none => false
  | some (x, tr) => tr == trE && tornE x

private theorem rest_of {acts : List Act} {x : Sys} {tr : List Ev} {s : Store} {fs : Fs}
    (hr : run sharedCfg acts (Sys.init s fs) = some (x, tr)) (h : restTest x = true)
    (ha : ∀ a ∈ acts, actor a = none ∨ actor a = some 1 ∨ actor a = some 2) :
    (∀ t, x.pc t = .out) ∧ x.fl = .idle ∧ x.s.ec = none := by
  simp only [restTest, idleD, Bool.and_eq_true, beq_iff_eq] at h
  obtain ⟨⟨⟨h1, h2⟩, h3⟩, h4⟩ := h
  refine ⟨fun t => ?_, ?_, h1⟩
  · by_cases e1 : t = 1
    · rw [e1]; exact out_iff h3
    by_cases e2 : t = 2
    · rw [e2]; exact out_iff h4
    refine (run_pc hr ?_).trans rfl
    intro a h
    rcases ha a h with e | e | e <;> rw [e] <;> simp [Ne.symm e1, Ne.symm e2]
  · split at h2
    · assumption
    · cases h2

private theorem no_faults {acts : List Act} (h : acts.all (fun a => match a with
    | .go _ .none => true | .go _ _ => false | .goF .none => true | .goF _ => false | _ => true) = true) : ¬ Faults acts := by
  rintro ⟨a, ha, hf⟩
  have := List.all_eq_true.mp h a ha
  unfold Act.Faulty at hf
  split at hf
  · split at this <;> simp_all
  · split at this <;> simp_all
  · exact hf

private theorem actors {acts : List Act} (h : acts.all (fun a => actor a == none || actor a == some 1 || actor a == some 2) = true) :
    ∀ a ∈ acts, actor a = none ∨ actor a = some 1 ∨ actor a = some 2 := by
  intro a ha
  have := List.all_eq_true.mp h a ha
  simpa [or_assoc] using this

/-- Everything as described. -/
theorem demo_sessions : ∃ s fs e₁ s' fs', Lifetime sharedCfg 2 False (.ready 104) (some s, fs) e₁ ∧ s.ec = none ∧ s.p1 = [] ∧
    (∃ x, run sharedCfg (actsA ++ (actsD ++ [])) (Sys.init s fs) = some (x, trA ++ ([] ++ [])) ∧
      Completed sharedCfg (actsA ++ (actsD ++ [])) (Sys.init s fs) trA ∧ Restart x.seen x.seen ∧
      Attempts sharedCfg False x.seen x.seen) ∧
    Lifetime sharedCfg 2 False (.ready 104) (some s', fs')
      (e₁ ++ [.shared false trA trA] ++ [.ended false [] trE, .used (.call .open .done false)]) ∧ s'.ec = none := by
  obtain ⟨s, fs, m, h, ht⟩ := demo_shared (P := lifeTest) (by decide +kernel)
  obtain ⟨⟨t, hr⟩, he, hp, -⟩ := h
  have g0 := C52_starts demo_creatable hr
  unfold lifeTest at ht
  split at ht
  · cases ht
  rename_i xA tA hA
  simp only [Bool.and_eq_true, beq_iff_eq] at ht
  obtain ⟨rfl, ht⟩ := ht
  split at ht
  · cases ht
  rename_i xD tD hD
  simp only [Bool.and_eq_true, beq_iff_eq, List.isEmpty_iff] at ht
  obtain ⟨⟨⟨rfl, hb⟩, hp'⟩, ht⟩ := ht
  split at ht
  · cases ht
  rename_i xE tE hE
  simp only [Bool.and_eq_true, beq_iff_eq] at ht
  obtain ⟨rfl, hc⟩ := ht
  have hAD := run_append hA (run_append hD (show run sharedCfg [] xD = some (xD, []) from rfl))
  obtain ⟨k1, k2, k3⟩ := rest_of hAD hb (actors (by decide))
  have hC : Completed sharedCfg (actsA ++ (actsD ++ [])) (Sys.init s fs) trA :=
    ⟨actsA, List.replicate 21 (.goF .none), [], xA, xD, [], rfl, hA, hD, k2, k3⟩
  have g1 := Lifetime.shared (d := false) g0 he hp hAD (fun h => absurd h (no_faults (by decide))) (.inr hC) k1 k2 k3
  have g2 := Lifetime.ended (d := false) g1 k3 hp' hE (fun h => absurd h (no_faults (by decide))) (.inl rfl) id (.inl rfl)
  obtain ⟨s', w', -, he', g3⟩ := C52_opens (w := ⟨_, 0, []⟩) g2
  refine ⟨s, fs, _, s', w'.fs, g0, he, hp, ⟨xD, hAD, hC, .inl rfl, .none _⟩, ?_, he'⟩
  rw [List.append_nil, List.append_nil, List.append_assoc _ [Change.ended _ _ _]] at g3
  exact g3

/- The hypotheses of C54_calls and C54_restart are met at the beginning of the first session. Those of
C54_durable, C54_only and C54_only_restart are met in the end: the value of the winner is in the files,
even if the process dies again. -/
example : ∃ (s : Store) (fs : Fs) (mp : Map), s.ec = none ∧ Answers sharedCfg 2 fs mp ∧ mp [6, 6] = some [61] := by
  obtain ⟨-, -, e₁, s, fs, -, -, -, -, h, he⟩ := demo_sessions
  obtain ⟨mp, h1, h2⟩ := C54_durable h (.inl rfl) trA_call (.inl rfl)
  exact ⟨s, fs, mp, he, h1, h2⟩

example : ∃ (s : Store) (fs : Fs) (e₁ : List Change), (fetch sharedCfg s [6, 6] calm ⟨fs, 0, []⟩).1 = .ok [61] ∧
    ∃ e ∈ e₁ ++ [.shared false trA trA] ++ [.ended false [] trE, .used (.call .open .done false)], Passed [6, 6] [61] e := by
  obtain ⟨-, -, e₁, s, fs, -, -, -, -, h, he⟩ := demo_sessions
  have hf : (fetch sharedCfg s [6, 6] calm ⟨fs, 0, []⟩).1 = .ok [61] :=
    C54_found h trA_call (by intro e he; simp only [List.mem_cons, List.not_mem_nil, or_false] at he
                             rcases he with rfl | rfl <;> trivial) rfl he _ rfl
  exact ⟨s, fs, e₁, hf, C54_only h he _ rfl rfl hf⟩

/- Another life: the same two threads, and the store is closed without a flush before. -/

def closeTest (x : Sys) : Bool :=
  match run sharedCfg actsA x with
  | none => false
  | some (x, tr) => tr == trA && restTest x && !x.s.p1.isEmpty &&
  match perform sharedCfg .close (some x.s) calm ⟨x.fs, 0, []⟩ with
  | (.ok (none, .done), _) => true
  | _ => false

/-- The premises of `C54_flushed` and its conclusion. -/
example : ∃ fs e₁, Lifetime sharedCfg 2 False (.ready 104) (none, fs)
      (e₁ ++ [.shared false [] trA] ++ [] ++ [.used (.call .close .done false)] ++ []) ∧
    ∃ mp, Answers sharedCfg 2 fs mp ∧ mp [6, 6] = some [61] := by
  obtain ⟨s, fs, m, h, ht⟩ := demo_shared (P := closeTest) (by decide +kernel)
  obtain ⟨⟨t, hr⟩, he, hp, -⟩ := h
  have g0 := C52_starts demo_creatable hr
  unfold closeTest at ht
  split at ht
  · cases ht
  rename_i xA tA hA
  simp only [Bool.and_eq_true, beq_iff_eq] at ht
  obtain ⟨⟨⟨rfl, hb⟩, -⟩, ht⟩ := ht
  obtain ⟨k1, k2, k3⟩ := rest_of hA hb (actors (by decide))
  have g1 := Lifetime.shared (d := false) g0 he hp hA (fun h => absurd h (no_faults (by decide))) (.inl rfl) k1 k2 k3
  split at ht
  · rename_i w hw
    have g2 := Lifetime.used (l := .call .close .done false) g1 (.call (w := ⟨xA.fs, 0, []⟩) calm trivial
      ⟨fun h => (by cases h), fun h => h.elim⟩ rfl hw (fun _ _ => rfl))
    have g3 : Lifetime sharedCfg 2 False (.ready 104) (none, w.fs)
      (t.map .used ++ [.shared false [] trA] ++ [] ++ [.used (.call .close .done false)] ++ []) := by
      rw [List.append_nil, List.append_nil]; exact g2
    exact ⟨_, _, g3, C54_flushed g3 trA_call (fun e h => by cases h) (.inr rfl) (.inl rfl)⟩
  · cases ht

end NuDB
