import Verif.Proof.ConcLive
import Verif.Props.Demo
/-
C36, C37, C38, C51: several threads use one store. See Model/Concurrent for the executions
and Spec/Concurrent for the notions used.
-/
namespace NuDB

open Spec Conc

section
variable {c : Cfg} {a : CreateArgs} {lf : Nat} {short : Prop} {s : Store} {fs : Fs} {m : Map} {acts : List Act}
  {x : Sys} {tr : List Ev} {t : Nat} {k v : Bytes} {r : CRet} {pre mid post : List Ev}

/-- C36, for all calls: whatever the interleaving of any number of threads and of flushes,
every call that returned has a result that was right at a moment during the call; or a file
operation failed and the call reports that. Pairs are added only by `insert`, once. -/
theorem C36_calls (hc : Creatable a lf) (hs : Started c a short s fs m)
    (hr : run c acts (Sys.init s fs) = some (x, tr)) :
    (∀ t op r pre mid post, Call tr t op r pre mid post → Right m (Faults acts) t op r pre mid) ∧ Owned m tr :=
  let ⟨_, _, h⟩ := inv_reached hc hs hr
  ⟨h.hist, h.owned⟩

/-- C36: every `fetch` that returned reports what was stored for the key at some moment
between its call and its return, unless a file operation failed. -/
theorem C36 (hc : Creatable a lf) (hs : Started c a short s fs m)
    (hr : run c acts (Sys.init s fs) = some (x, tr)) (hcall : Call tr t (.fetch k) r pre mid post) :
    (∃ now, pre <+: now ∧ now <+: pre ++ .call t (.fetch k) :: mid ∧
      r = match contents m now k with | some v => .found v | none => .error .key_not_found) ∨
    (Faults acts ∧ r = .error .io) := by
  cases (C36_calls hc hs hr).1 t _ r pre mid post hcall with
  | answer a b h _ ha =>
    refine .inl ⟨_, ⟨.call t (.fetch k) :: a, rfl⟩, ⟨b, by rw [h]; simp⟩, ha⟩
  | added k' v' a b h h1 h2 ho => cases ho
  | failed _ hr hf => exact .inr ⟨hf, hr⟩

/-- C36: a key is never temporarily invisible. If an `insert` of `k` returned successfully
before `fetch` was called, then `fetch` finds the value, unless a file operation fails. -/
theorem C36_visible (hc : Creatable a lf) (hs : Started c a short s fs m)
    (hr : run c acts (Sys.init s fs) = some (x, tr))
    {u : Nat} {pre' mid' post' : List Ev} (hins : Call pre u (.insert k v) .done pre' mid' post')
    (hcall : Call tr t (.fetch k) r pre mid post) : r = .found v ∨ (Faults acts ∧ r = .error .io) := by
  have hown := (C36_calls hc hs hr).2
  have hpre : pre <+: tr := ⟨_, hcall.1.symm⟩
  have hc2 : Call tr u (.insert k v) .done pre' mid' (post' ++ .call t (.fetch k) :: (mid ++ .ret t r :: post)) := by
    refine ⟨?_, hins.2⟩
    rw [hcall.1]
    conv => lhs; rw [hins.1]
    simp
  obtain ⟨k', v', b1, b2, e1, e2⟩ := ((C36_calls hc hs hr).1 _ _ _ _ _ _ hc2).done
  cases e1
  have hcont : contents m pre k = some v := by
    refine hown.stays_to hpre (a := pre' ++ .call u (.insert k v) :: b1 ++ [.added u k v]) ?_ (contents_at ..)
    refine ⟨b2 ++ .ret u .done :: post', ?_⟩
    rw [hins.1, e2]
    simp
  rcases C36 hc hs hr hcall with ⟨now, h1, h2, h3⟩ | h
  · left
    have hnow : now <+: tr := h2.trans ⟨.ret t r :: post, by rw [hcall.1]; simp⟩
    rw [hown.stays_to hnow h1 hcont] at h3
    exact h3
  · exact .inr h

/-- C36: a pair stored before is never invisible either. -/
theorem C36_old (hc : Creatable a lf) (hs : Started c a short s fs m)
    (hr : run c acts (Sys.init s fs) = some (x, tr)) (hk : m k = some v)
    (hcall : Call tr t (.fetch k) r pre mid post) : r = .found v ∨ (Faults acts ∧ r = .error .io) := by
  have hown := (C36_calls hc hs hr).2
  rcases C36 hc hs hr hcall with ⟨now, h1, h2, h3⟩ | h
  · left
    have hnow : now <+: tr := h2.trans ⟨.ret t r :: post, by rw [hcall.1]; simp⟩
    rw [hown.stays_to hnow (a := []) (List.nil_prefix) hk] at h3
    exact h3
  · exact .inr h

/-- C37: of the completed calls inserting the same key at most one succeeds; then its value
is the one stored from then on. -/
theorem C37_once (hc : Creatable a lf) (hs : Started c a short s fs m)
    (hr : run c acts (Sys.init s fs) = some (x, tr)) (h1 : Call tr t (.insert k v) .done pre mid post) :
    m k = none ∧ contents m tr k = some v ∧
    ∀ t' v' pre' mid' post', Call tr t' (.insert k v') .done pre' mid' post' →
      t' = t ∧ v' = v ∧ pre' = pre ∧ mid' = mid ∧ post' = post := by
  have hown := (C36_calls hc hs hr).2
  have key : ∀ {t v pre mid post}, Call tr t (.insert k v) .done pre mid post →
      ∃ b1 b2, mid = b1 ++ .added t k v :: b2 ∧ tr = (pre ++ .call t (.insert k v) :: b1) ++ .added t k v ::
        (b2 ++ .ret t .done :: post) := by
    intro t v pre mid post h
    obtain ⟨k', v', b1, b2, e1, e2⟩ := ((C36_calls hc hs hr).1 _ _ _ _ _ _ h).done
    cases e1
    exact ⟨b1, b2, e2, by rw [h.1, e2]; simp⟩
  obtain ⟨b1, b2, e1, e2⟩ := key h1
  refine ⟨?_, ?_, ?_⟩
  · cases hm : m k with
    | none => rfl
    | some u =>
      have := hown.stays_to (a := []) ⟨_, e2.symm⟩ (List.nil_prefix) hm
      rw [(hown _ _ _ _ _ e2).1] at this
      cases this
  · exact hown.stays (b := b2 ++ .ret t .done :: post) (a := (pre ++ .call t (.insert k v) :: b1) ++ [.added t k v])
      (by rw [e2]; simp) (contents_at ..)
  · intro t' v' pre' mid' post' h2
    obtain ⟨d1, d2, f1, f2⟩ := key h2
    obtain ⟨g1, rfl, rfl, g2⟩ := hown.once f2 e2
    have hi1 : Inside t' d1 := fun e he => h2.2 e (by rw [f1]; simp [he])
    have hi2 : Inside t' b1 := fun e he => h1.2 e (by rw [e1]; simp [he])
    obtain ⟨_, rfl, rfl⟩ := last_call hi1 hi2 g1
    have hi3 : Inside t' d2 := fun e he => h2.2 e (by rw [f1]; simp [he])
    have hi4 : Inside t' b2 := fun e he => h1.2 e (by rw [e1]; simp [he])
    have hsame : d2 = b2 ∧ post' = post := by
      rcases List.append_eq_append_iff.mp g2 with ⟨l, l1, l2⟩ | ⟨l, l1, l2⟩
      · cases l with
        | nil => simp at l1 l2; exact ⟨l1.symm, l2⟩
        | cons e l =>
          simp at l2
          exact absurd l2.1.symm ((hi4 e (by rw [l1]; simp)).2 _)
      · cases l with
        | nil => simp at l1 l2; exact ⟨l1, l2.symm⟩
        | cons e l =>
          simp at l2
          exact absurd l2.1.symm ((hi3 e (by rw [l1]; simp)).2 _)
    obtain ⟨rfl, rfl⟩ := hsame
    exact ⟨rfl, rfl, rfl, by rw [f1, e1], rfl⟩

/-- C37: a completed `insert` succeeds or reports `key_exists`, unless a file operation
failed. -/
theorem C37_results (hc : Creatable a lf) (hs : Started c a short s fs m)
    (hr : run c acts (Sys.init s fs) = some (x, tr)) (h : Call tr t (.insert k v) r pre mid post) :
    r = .done ∨ r = .error .key_exists ∨ (Faults acts ∧ r = .error .io) := by
  cases (C36_calls hc hs hr).1 _ _ _ _ _ _ h with
  | answer a b h _ ha => exact .inr (.inl ha.1)
  | added k' v' a b h h1 h2 ho hr => exact .inl hr
  | failed _ hr hf => exact .inr (.inr ⟨hf, hr⟩)

/-- C37: if threads insert the same absent key, with flushes at any moment, then when all
calls have returned exactly one of the inserts succeeded, the others reported `key_exists`,
and the value stored is the winner's. -/
theorem C37 (hc : Creatable a lf) (hs : Started c a short s fs m)
    (hr : run c acts (Sys.init s fs) = some (x, tr)) (hf : ¬ Faults acts) (hdone : Complete tr) (hk : m k = none)
    (hsome : ∃ t v, .call t (.insert k v) ∈ tr) :
    ∃ t v pre mid post, Call tr t (.insert k v) .done pre mid post ∧ contents m tr k = some v ∧
      ∀ t' v' r' pre' mid' post', Call tr t' (.insert k v') r' pre' mid' post' →
        (r' = .done ∧ t' = t ∧ v' = v ∧ pre' = pre) ∨ r' = .error .key_exists := by
  have hright := (C36_calls hc hs hr).1
  have hown := (C36_calls hc hs hr).2
  have hex : ∃ t v pre mid post, Call tr t (.insert k v) .done pre mid post := by
    obtain ⟨t, v, hm⟩ := hsome
    obtain ⟨pre, rest, he⟩ := List.append_of_mem hm
    obtain ⟨r, mid, post, h⟩ := hdone _ _ _ _ he
    cases hright _ _ _ _ _ _ h with
    | added k' v' a b h' h1 h2 ho hr => subst hr; exact ⟨_, _, _, _, _, h⟩
    | failed _ _ hf' => exact absurd hf' hf
    | answer a b hab _ ha =>
      obtain ⟨p, t', v', q, hp⟩ := contents_some hk ha.2
      have hp' : tr = p ++ .added t' k v' :: (q ++ (b ++ .ret t r :: post)) := by
        rw [h.1, hab]
        have : pre ++ Ev.call t (.insert k v) :: (a ++ b ++ .ret t r :: post) =
            (pre ++ .call t (.insert k v) :: a) ++ (b ++ .ret t r :: post) := by simp
        rw [this, hp]; simp
      obtain ⟨_, pre', mid', e1, e2⟩ := hown _ _ _ _ _ hp'
      obtain ⟨r', mid2, post', h'⟩ := hdone t' (.insert k v') pre' (mid' ++ .added t' k v' ::
        (q ++ (b ++ .ret t r :: post))) (by rw [hp', e1]; simp)
      refine ⟨t', v', pre', mid2, post', ?_⟩
      -- the call that returned contains the moment of adding
      have hin : ∃ l, mid2 = mid' ++ .added t' k v' :: l := by
        have e3 : mid2 ++ .ret t' r' :: post' = mid' ++ .added t' k v' :: (q ++ (b ++ .ret t r :: post)) := by
          have := h'.1.symm.trans hp'
          rw [e1] at this
          simpa using this
        rcases List.append_eq_append_iff.mp e3 with ⟨l, l1, l2⟩ | ⟨l, l1, l2⟩
        · cases l with
          | nil => simp at l2
          | cons e l =>
            simp at l2
            have := e2 e (by rw [l1]; simp)
            rw [← l2.1] at this
            exact absurd rfl this
        · cases l with
          | nil => simp at l2
          | cons e l =>
            simp at l2
            exact ⟨l, by rw [l1, l2.1]⟩
      obtain ⟨l, hl⟩ := hin
      cases hright _ _ _ _ _ _ h' with
      | added k' v' a b h'' h1 h2 ho hr => subst hr; exact h'
      | failed hs' _ _ => exact absurd rfl (hs' (.added t' k v') (by rw [hl]; simp))
      | answer a b hab hs' ha => exact absurd rfl (hs' (.added t' k v') (by rw [hl]; simp))
  obtain ⟨t, v, pre, mid, post, h⟩ := hex
  obtain ⟨_, h2, h3⟩ := C37_once hc hs hr h
  refine ⟨t, v, pre, mid, post, h, h2, ?_⟩
  intro t' v' r' pre' mid' post' h'
  rcases C37_results hc hs hr h' with rfl | rfl | ⟨hf', _⟩
  · obtain ⟨e1, e2, e3, _⟩ := h3 _ _ _ _ _ h'
    exact .inl ⟨rfl, e1, e2, e3⟩
  · exact .inr rfl
  · exact absurd hf' hf

/-- C38: while a thread reads bytes of the key file, the flusher changes none of them. -/
theorem C38 (hc : Creatable a lf) (hs : Started c a short s fs m)
    (hr : run c acts (Sys.init s fs) = some (x, tr)) {off n off' n' : Nat} (h1 : Reading x t off n)
    (h2 : Changing x off' n') : off + n ≤ off' ∨ off' + n' ≤ off := by
  obtain ⟨lo, nx, hinv⟩ := inv_reached hc hs hr
  obtain ⟨b, g, e1, e2, e3⟩ := reading_block hinv h1
  obtain ⟨b', p, f1, f2, f3, f4⟩ := changing_block hinv h2
  unfold GenOk at e3
  rw [f1] at e3
  have hne : b ≠ b' := by rintro rfl; exact f4 e3
  have := blk_disjoint (bs := (a.conf lf).blockSize) hne
  omega

/-- C38: the flusher does not wait for readers that started after it announced the write:
let `x₁` be a state after the announcement and `x` a later state during the same flush. If
the flusher waits in `x`, then there is a thread that has been reading since before `x₁`: it
holds the same generation in both states, and this generation is older than the one given
to new readers. -/
theorem C38_wait (hc : Creatable a lf) (hs : Started c a short s fs m) {acts₁ acts₂ : List Act} {x₁ : Sys}
    {tr₁ tr₂ : List Ev} (h1 : run c acts₁ (Sys.init s fs) = some (x₁, tr₁)) {p : Prog Unit} (hp : x₁.fl = .log p)
    (h2 : run c acts₂ x₁ = some (x, tr₂)) (hn : Act.flush ∉ acts₂) (hw : Waiting c x) :
    ∃ t g, Holding x₁ t g ∧ Holding x t g ∧ g < x.g.gen := by
  obtain ⟨_, _, hinv₁⟩ := inv_reached hc hs h1
  obtain ⟨lo, nx, hinv⟩ := inv_run hinv₁ h2
  obtain ⟨t, g, e1, e2⟩ := waiting_old hinv hw
  obtain ⟨f1, f2⟩ := announced_run (by rw [hp]; trivial) hn h2
  refine ⟨t, g, ?_, genOf_holding.mp e1, e2⟩
  rcases f2 t g e1 with h | h
  · exact genOf_holding.mp h
  · omega

/-- C38: a thread that starts to read after the announcement gets the current generation. -/
theorem C38_late {acts₂ : List Act} {x₁ : Sys} {tr₂ : List Ev} {p : Prog Unit} (hp : x₁.fl = .log p)
    (h2 : run c acts₂ x₁ = some (x, tr₂)) (hn : Act.flush ∉ acts₂) {g : Nat}
    (h : Holding x t g) (hnew : ∀ g', ¬ Holding x₁ t g') : g = x.g.gen := by
  obtain ⟨f1, f2⟩ := announced_run (by rw [hp]; trivial) hn h2
  rcases f2 t g (genOf_holding.mpr h) with h | h
  · exact absurd (genOf_holding.mp h) (hnew g)
  · omega

/-- C51: threads do not get stuck. Whatever happened before, a thread in a call can go on,
or it waits for a mutex that another thread holds; and then some thread in a call can go
on. (Going on means that no assertion fails, there is no undefined behaviour and no
mutex to wait for.) -/
theorem C51 (hc : Creatable a lf) (hs : Started c a short s fs m)
    (hr : run c acts (Sys.init s fs) = some (x, tr)) (ht : x.pc t ≠ .out) :
    ((∃ z, step c x (.go t .none) = some z) ∨ (∃ k v, x.pc t = .ins1 k v ∧ x.owner ≠ none) ∨
      (∃ k v, x.pc t = .ins3 k v ∧ x.shared ≠ [])) ∧
    ∃ u, x.pc u ≠ .out ∧ ∃ z, step c x (.go u .none) = some z :=
  let ⟨_, _, h⟩ := inv_reached hc hs hr
  ⟨able_thread h ht, able_some h ht⟩

/-- C51: the flusher does not get stuck either. As long as no file operation failed, it can
go on, or it waits for a thread, and some thread in a call can go on; or it reached the
limits of the file format: more than 2^32 buckets would be needed, or the data file comes
within 2^33 bytes of 2^48. -/
theorem C51_flusher (hc : Creatable a lf) (hs : Started c a short s fs m)
    (hr : run c acts (Sys.init s fs) = some (x, tr)) (hf : ¬ Faults acts) (hfl : x.fl ≠ .idle) :
    (∃ z, step c x (.goF .none) = some z) ∨ (∃ u, x.pc u ≠ .out ∧ ∃ z, step c x (.go u .none) = some z) ∨
    2 ^ 32 < x.s.buckets + x.s.p0.length ∨ Big x.fs := by
  obtain ⟨lo, nx, hinv⟩ := inv_reached hc hs hr
  rcases able_flusher hinv hf hfl with h | h | h | h
  · exact .inl h
  · obtain ⟨u, h1, h2⟩ := able_shared hinv h
    exact .inr (.inl ⟨u, (by intro e; rw [e] at h1; cases h1), h2⟩)
  · obtain ⟨t, g, e1, _⟩ := waiting_old hinv h
    exact .inr (.inl (able_some hinv (t := t) (by intro e; rw [e] at e1; cases e1)))
  · exact .inr (.inr h)

end

/- Examples: two threads insert the same key, a third one reads, a flush runs. -/

/-- A state of a store that can be shared. -/
theorem started_of {c : Cfg} {a : CreateArgs} {lf : Nat} {short : Prop} {s : Store} {fs : Fs} {t : List Label}
    (hc : Creatable a lf) (hr : Reachable c a short t (some s, fs)) (he : s.ec = none) (hp : s.p1 = []) :
    ∃ m, Started c a short s fs m := by
  obtain ⟨st, _, hrel⟩ := simulation hc hr
  cases hrel with
  | failed h => rw [he] at h; cases h
  | @opened _ _ D K recs B view hS base hz hf => exact ⟨_, ⟨_, hr⟩, he, hp, hS.lookups⟩

/-- Keys with different first bytes are in different buckets. -/
def sharedCfg : Cfg where
  H := fun _ k => UInt64.ofNat ((k.headD 0).toNat * 2 ^ 16)
  junk := fun n => UInt8.ofNat (n + 170)
  order := fun l => l.reverse
  order_perm := List.reverse_perm

theorem demo_shared {P : Sys → Bool}
    (h : demoTest sharedCfg demoArgs (demoOps.take 10)
      (fun s w => s.ec == none && s.p1.isEmpty && P (Sys.init s w.fs)) = true) :
    ∃ s fs m, Started sharedCfg demoArgs False s fs m ∧ P (Sys.init s fs) = true := by
  obtain ⟨rets, s, w, h1, h2⟩ := demo_test (demoOps_sound 10) h
  simp only [Bool.and_eq_true, beq_iff_eq, List.isEmpty_iff] at h2
  obtain ⟨m, hm⟩ := started_of demo_creatable h1 h2.1.1 h2.1.2
  exact ⟨s, w.fs, m, hm, h2.2⟩

/-- Threads 1 and 2 insert the same key. -/
def actsA : List Act :=
  [.call 1 (.insert [6, 6] [61]), .call 2 (.insert [6, 6] [62]), .go 1 .none, .go 2 .none] ++
  List.replicate 5 (.go 1 .none) ++ [.go 2 .none, .go 1 .none, .go 2 .none, .go 2 .none]

/-- Thread 3 looks in the same bucket, a flush starts, thread 1 fetches the key, the flusher
completes the log. -/
def actsB : List Act :=
  [.call 3 (.fetch [6, 1]), .go 3 .none, .go 3 .none, .flush, .call 1 (.fetch [6, 6])] ++
  List.replicate 3 (.go 1 .none) ++ List.replicate 12 (.goF .none)

/-- Thread 2 looks in another bucket, thread 3 completes, the flusher begins to write the key
file. -/
def actsC : List Act :=
  [.call 2 (.fetch [1, 2]), .go 2 .none, .go 2 .none] ++ List.replicate 3 (.go 3 .none) ++ List.replicate 3 (.goF .none)

def trA : List Ev :=
  [.call 1 (.insert [6, 6] [61]), .call 2 (.insert [6, 6] [62]), .added 1 [6, 6] [61], .ret 1 .done,
   .ret 2 (.error .key_exists)]

def trB : List Ev := [.call 3 (.fetch [6, 1]), .call 1 (.fetch [6, 6]), .ret 1 (.found [61])]

def trC : List Ev := [.call 2 (.fetch [1, 2]), .ret 3 (.error .key_not_found)]

/-- Thread 3 reads the key file with the first generation, the flusher has completed the log
and cannot go on. -/
def sharedB (y : Sys) : Bool :=
  (match y.pc 3 with | .fetchK _ _ 0 _ => true | _ => false) &&
  (match y.fl with | .log (.ret _) => true | _ => false) && (step sharedCfg y (.goF .none)).isNone

/-- Thread 2 reads the key file while the flusher writes it. -/
def sharedC (y : Sys) : Bool :=
  (match y.pc 2 with | .fetchK _ _ 1 (.read .key 208 98 _) => true | _ => false) &&
  (match y.fl with | .keys (.write .key 104 _ _) => true | _ => false)

def sharedTest (x : Sys) : Bool :=
  match run sharedCfg actsA x with
  | none => false
  | some (x, tr) => tr == trA &&
  match run sharedCfg actsB x with
  | none => false
  | some (x, tr) => tr == trB && sharedB x &&
  match run sharedCfg actsC x with
  | none => false
  | some (x, tr) => tr == trC && sharedC x

theorem shared_runs : ∃ s fs m, Started sharedCfg demoArgs False s fs m ∧ ∃ xA xB xC,
    run sharedCfg actsA (Sys.init s fs) = some (xA, trA) ∧ run sharedCfg actsB xA = some (xB, trB) ∧
    run sharedCfg actsC xB = some (xC, trC) ∧ sharedB xB = true ∧ sharedC xC = true := by
  obtain ⟨s, fs, m, h, ht⟩ := demo_shared (P := sharedTest) (by decide +kernel)
  refine ⟨s, fs, m, h, ?_⟩
  unfold sharedTest at ht
  split at ht
  · cases ht
  · rename_i x tr h1
    simp only [Bool.and_eq_true, beq_iff_eq] at ht
    obtain ⟨rfl, ht⟩ := ht
    split at ht
    · cases ht
    · rename_i x2 tr2 h2
      simp only [Bool.and_eq_true, beq_iff_eq] at ht
      obtain ⟨⟨rfl, hb⟩, ht⟩ := ht
      split at ht
      · cases ht
      · rename_i x3 tr3 h3
        simp only [Bool.and_eq_true, beq_iff_eq] at ht
        obtain ⟨rfl, hc⟩ := ht
        exact ⟨_, _, _, h1, h2, h3, hb, hc⟩

/- The hypotheses of C37, and so of C36_calls and C37_results. -/
example : ∃ s fs m x, Started sharedCfg demoArgs False s fs m ∧
    run sharedCfg actsA (Sys.init s fs) = some (x, trA) ∧ ¬ Faults actsA ∧ Complete trA ∧
    m [6, 6] = none ∧ (∃ t v, .call t (.insert [6, 6] v) ∈ trA) ∧
    Call trA 1 (.insert [6, 6] [61]) .done [] [.call 2 (.insert [6, 6] [62]), .added 1 [6, 6] [61]]
      [.ret 2 (.error .key_exists)] := by
  obtain ⟨s, fs, m, h, xA, xB, xC, h1, -⟩ := shared_runs
  have hcall : Call trA 1 (.insert [6, 6] [61]) .done [] [.call 2 (.insert [6, 6] [62]), .added 1 [6, 6] [61]]
      [.ret 2 (.error .key_exists)] := by
    refine ⟨rfl, ?_⟩
    intro e he
    simp only [List.mem_cons, List.not_mem_nil, or_false] at he
    rcases he with rfl | rfl <;> simp
  refine ⟨s, fs, m, xA, h, h1, ?_, ?_, (C37_once demo_creatable h h1 hcall).1, ⟨1, [61], by simp [trA]⟩, hcall⟩
  · rintro ⟨a, ha, hf⟩
    simp [actsA] at ha
    rcases ha with h | h | h | h | h | h | h | h <;> subst h <;> simp [Act.Faulty] at hf
  · intro t op pre rest he
    unfold trA at he
    rcases pre with _ | ⟨_, _ | ⟨_, _ | ⟨_, _ | ⟨_, _ | ⟨_, _ | ⟨_, _⟩⟩⟩⟩⟩⟩ <;> simp at he
    · obtain ⟨⟨rfl, rfl⟩, rfl⟩ := he
      exact ⟨_, _, _, hcall⟩
    · obtain ⟨rfl, ⟨rfl, rfl⟩, rfl⟩ := he
      refine ⟨.error .key_exists, [.added 1 [6, 6] [61], .ret 1 .done], [], rfl, ?_⟩
      intro e he
      simp only [List.mem_cons, List.not_mem_nil, or_false] at he
      rcases he with rfl | rfl <;> simp

theorem run_append {c : Cfg} {a b : List Act} {x y z : Sys} {tr tr' : List Ev} (h1 : run c a x = some (y, tr))
    (h2 : run c b y = some (z, tr')) : run c (a ++ b) x = some (z, tr ++ tr') := by
  induction a generalizing x tr with
  | nil => cases h1; exact h2
  | cons e a ih =>
    simp only [run, List.cons_append] at h1 ⊢
    split at h1
    · cases h1
    · rename_i w es _
      cases h3 : run c a w with
      | none => rw [h3] at h1; cases h1
      | some r =>
        rw [h3] at h1
        cases h1
        rw [ih h3]
        simp

/- The hypotheses of C36 and C36_visible. -/
example : ∃ s fs m x, Started sharedCfg demoArgs False s fs m ∧
    run sharedCfg (actsA ++ actsB) (Sys.init s fs) = some (x, trA ++ trB) ∧
    Call (trA ++ [.call 3 (.fetch [6, 1])]) 1 (.insert [6, 6] [61]) .done []
      [.call 2 (.insert [6, 6] [62]), .added 1 [6, 6] [61]]
      [.ret 2 (.error .key_exists), .call 3 (.fetch [6, 1])] ∧
    Call (trA ++ trB) 1 (.fetch [6, 6]) (.found [61]) (trA ++ [.call 3 (.fetch [6, 1])]) [] [] := by
  obtain ⟨s, fs, m, h, xA, xB, xC, h1, h2, -⟩ := shared_runs
  refine ⟨s, fs, m, xB, h, run_append h1 h2, ⟨rfl, ?_⟩, rfl, (by intro e he; cases he)⟩
  intro e he
  simp only [List.mem_cons, List.not_mem_nil, or_false] at he
  rcases he with rfl | rfl <;> simp

/- The hypotheses of C36_old: the second pair of the demonstration is fetched. -/
example : ∃ s fs m x, Started sharedCfg demoArgs False s fs m ∧ m [1, 2] = some [20, 21] ∧
    run sharedCfg ([.call 2 (.fetch [1, 2])] ++ List.replicate 7 (.go 2 .none)) (Sys.init s fs) =
      some (x, [.call 2 (.fetch [1, 2]), .ret 2 (.found [20, 21])]) ∧
    Call [.call 2 (.fetch [1, 2]), .ret 2 (.found [20, 21])] 2 (.fetch [1, 2]) (.found [20, 21]) [] [] [] := by
  obtain ⟨s, fs, m, h, ht⟩ := demo_shared (P := fun x =>
    match run sharedCfg ([.call 2 (.fetch [1, 2])] ++ List.replicate 7 (.go 2 .none)) x with
    | some (_, tr) => tr == [.call 2 (.fetch [1, 2]), .ret 2 (.found [20, 21])]
    | none => false) (by decide +kernel)
  split at ht
  · rename_i x tr hr
    simp only [beq_iff_eq] at ht
    subst ht
    have hcall : Call [.call 2 (.fetch [1, 2]), .ret 2 (.found [20, 21])] 2 (.fetch [1, 2]) (.found [20, 21]) [] [] [] :=
      ⟨rfl, by intro e he; cases he⟩
    refine ⟨s, fs, m, x, h, ?_, hr, hcall⟩
    rcases C36 demo_creatable h hr hcall with ⟨now, h1, h2, h3⟩ | ⟨_, h⟩
    · have : contents m now = m := by
        obtain ⟨l, hl⟩ := h2
        rcases now with _ | ⟨e, _ | ⟨e', now⟩⟩ <;> simp at hl
        · rfl
        · obtain ⟨rfl, _⟩ := hl; rfl
      rw [this] at h3
      split at h3 <;> cases h3
      assumption
    · cases h
  · cases ht

/- The hypotheses of C38 and C51_flusher: thread 2 reads bucket 1 while the flusher writes
bucket 0. -/
example : ∃ s fs m x, Started sharedCfg demoArgs False s fs m ∧
    run sharedCfg (actsA ++ (actsB ++ actsC)) (Sys.init s fs) = some (x, trA ++ (trB ++ trC)) ∧
    Reading x 2 208 98 ∧ (∃ n, Changing x 104 n) ∧ x.pc 2 ≠ .out ∧ x.fl ≠ .idle := by
  obtain ⟨s, fs, m, h, xA, xB, xC, h1, h2, h3, -, hC⟩ := shared_runs
  refine ⟨s, fs, m, xC, h, run_append h1 (run_append h2 h3), ?_⟩
  unfold sharedC at hC
  simp only [Bool.and_eq_true] at hC
  obtain ⟨hC1, hC2⟩ := hC
  split at hC1
  · rename_i e1
    split at hC2
    · rename_i e2
      exact ⟨.fetchK e1 .read, ⟨_, .keys e2 .write⟩, by rw [e1]; simp, by rw [e2]; simp⟩
    · cases hC2
  · cases hC1

/- The hypotheses of C38_wait: the flusher waits for thread 3; thread 2 started later. -/
example : ∃ s fs m x₁ p x₂, Started sharedCfg demoArgs False s fs m ∧
    run sharedCfg (actsA ++ actsB) (Sys.init s fs) = some (x₁, trA ++ trB) ∧ x₁.fl = .log p ∧
    run sharedCfg [] x₁ = some (x₂, []) ∧ Act.flush ∉ ([] : List Act) ∧ Waiting sharedCfg x₂ ∧ Holding x₁ 3 0 := by
  obtain ⟨s, fs, m, h, xA, xB, xC, h1, h2, h3, hB, -⟩ := shared_runs
  unfold sharedB at hB
  simp only [Bool.and_eq_true, Option.isNone_iff_eq_none] at hB
  obtain ⟨⟨hB1, hB2⟩, hB3⟩ := hB
  split at hB1
  · rename_i e1
    split at hB2
    · rename_i e2
      exact ⟨s, fs, m, xB, _, xB, h, run_append h1 h2, e2, rfl, (by simp), ⟨⟨_, e2⟩, hB3⟩, .fetch e1⟩
    · cases hB2
  · cases hB1

/- The hypotheses of C38_late: thread 2 starts to read while the flusher waits. -/
example : ∃ x₁ p x₂, x₁.fl = .log p ∧ run sharedCfg actsC x₁ = some (x₂, trC) ∧ Act.flush ∉ actsC ∧
    Holding x₂ 2 1 := by
  obtain ⟨s, fs, m, h, xA, xB, xC, h1, h2, h3, hB, hC⟩ := shared_runs
  unfold sharedB at hB
  unfold sharedC at hC
  simp only [Bool.and_eq_true, Option.isNone_iff_eq_none] at hB hC
  obtain ⟨⟨hB1, hB2⟩, hB3⟩ := hB
  obtain ⟨hC1, hC2⟩ := hC
  split at hB2
  · rename_i e2
    split at hC1
    · rename_i e1
      exact ⟨xB, _, xC, e2, h3, (by simp [actsC]), .fetch e1⟩
    · cases hC1
  · cases hB2

end NuDB
