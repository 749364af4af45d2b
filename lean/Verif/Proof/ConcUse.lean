import Verif.Proof.ConcInit
/- Consequences of the invariant: accesses to the key file, waiting, progress. -/
namespace NuDB

open Spec Conc

section
variable {c : Cfg} {cf : Conf} {m : Map} {lo nx : Nat} {F : Prop} {x y : Sys} {tr : List Ev} {t : Nat}

theorem reads_in {B : Option (Nat × Bytes)} {D : Bytes} {p : Prog α} {res : Except Exc α} (h : Outcome F B D p res)
    (hg : Good res) {off n : Nat} (hp : ReadsKey p off n) :
    ∃ b blk, B = some (b, blk) ∧ b ≤ off ∧ off + n ≤ b + blk.length := by
  cases hp
  rcases h with ⟨_, h⟩ | h
  · cases h
  · subst h
    unfold eval at hg
    cases B with
    | none => exact absurd rfl hg.1
    | some B =>
      obtain ⟨b, blk⟩ := B
      simp only at hg
      split at hg
      · rename_i hc; exact ⟨b, blk, rfl, hc.1, hc.2⟩
      · exact absurd rfl hg.1

/-- A thread reads inside one block that is not written. -/
theorem reading_block (h : Inv c cf m lo nx F x tr) {off n : Nat} (hr : Reading x t off n) :
    ∃ b g, (b + 1) * cf.blockSize ≤ off ∧ off + n ≤ (b + 1) * cf.blockSize + cf.blockSize ∧ GenOk x g b := by
  obtain ⟨D, recs, view, hcore, hth⟩ := h.core
  have ht := hth t
  cases hr with
  | fetchC e hp =>
    rw [e] at ht
    obtain ⟨_, _, _, _, _, _, ho⟩ := ht
    obtain ⟨_, _, hB, _⟩ := reads_in ho (good_resOf _) hp
    cases hB
  | fetchK e hp =>
    rw [e] at ht
    obtain ⟨blk, h1, h2, _, _, _, _, _, ho⟩ := ht
    obtain ⟨_, _, hB, e1, e2⟩ := reads_in ho (good_resOf _) hp
    cases hB
    rw [h1.len] at e2
    exact ⟨_, _, e1, e2, h2⟩
  | insC e hp =>
    rw [e] at ht
    obtain ⟨_, _, _, ho⟩ := ht
    cases hp
    rcases ho with ⟨_, h⟩ | h
    · cases h
    · cases h
  | insS e hp =>
    rw [e] at ht
    obtain ⟨_, _, ho⟩ := ht
    obtain ⟨_, _, hB, _⟩ := reads_in ho (Good.ok _) hp
    cases hB
  | insK e hp =>
    rw [e] at ht
    obtain ⟨blk, h1, h2, _, _, ho⟩ := ht
    obtain ⟨_, _, hB, e1, e2⟩ := reads_in ho (Good.ok _) hp
    cases hB
    rw [h1.len] at e2
    exact ⟨_, _, e1, e2, h2⟩

theorem changes_in {T : Nat → Prop} {bs : Nat} {R : α → Prop} {p : Prog α} (h : Uses (OpOk T bs) R p) {off n : Nat}
    (hp : ChangesKey p off n) : ∃ b, T b ∧ off = (b + 1) * bs ∧ n ≤ bs := by
  cases hp with
  | write => cases h with | write h _ => obtain ⟨_, b, h1, h2, h3⟩ := h; exact ⟨b, h1, h2, h3⟩
  | append => cases h with | append h _ => exact absurd rfl h
  | trunc => cases h with | trunc h _ => cases h

/-- The flusher changes blocks of the cache, and only in its last phase. -/
theorem changing_block (h : Inv c cf m lo nx F x tr) {off n : Nat} (hr : Changing x off n) :
    ∃ b p, x.fl = .keys p ∧ off = (b + 1) * cf.blockSize ∧ n ≤ cf.blockSize ∧ x.s.c1.find b ≠ none := by
  obtain ⟨D, recs, view, hcore, hth⟩ := h.core
  have hfl := hcore.fl
  unfold FlOk at hfl
  cases hr with
  | prep e hp => rw [e] at hfl; obtain ⟨b, h, _⟩ := changes_in hfl.1 hp; exact h.elim
  | log e hp => rw [e] at hfl; obtain ⟨b, h, _⟩ := changes_in hfl.1 hp; exact h.elim
  | keys e hp =>
    rw [e] at hfl
    obtain ⟨b, h1, h2, h3⟩ := changes_in hfl.1 hp
    exact ⟨b, _, e, h2, h3, h1⟩

/-- A step gives no thread an old generation. -/
theorem goto_gen {q : Pc} {u g : Nat} (h : genOf ((x.goto t q).pc u) = some g) :
    genOf (x.pc u) = some g ∨ (u = t ∧ genOf q = some g) := by
  by_cases hu : u = t
  · right
    subst hu
    exact ⟨rfl, by simpa [Sys.goto] using h⟩
  · left
    simpa [Sys.goto, hu] using h

theorem go_gen {f : Fault} {es : List Ev} (hs : threadStep c x t f = some (y, es)) {u g : Nat}
    (hg : genOf (y.pc u) = some g) : genOf (x.pc u) = some g ∨ g = x.g.gen := by
  have out : ∀ {z : Sys} {q : Pc}, y = z.goto t q → z.pc = x.pc → (genOf q = none ∨ genOf q = genOf (x.pc t)) →
      genOf (x.pc u) = some g ∨ g = x.g.gen := by
    intro z q e hz hq
    subst e
    rcases goto_gen hg with h | ⟨rfl, h⟩
    · left; rw [← hz]; exact h
    · rcases hq with hq | hq
      · rw [hq] at h; cases h
      · left; rw [← hq]; exact h
  have rd : ∀ {α : Type} {p : Prog α} {q : Prog α → Pc}, (∀ r, genOf (q r) = genOf (x.pc t)) →
      (readStep f x.seen p).map (fun r => (x.goto t (q r), ([] : List Ev))) = some (y, es) →
      genOf (x.pc u) = some g ∨ g = x.g.gen := by
    intro α p q hq h
    obtain ⟨r, _, e⟩ := Option.map_eq_some_iff.mp h
    cases e
    exact out rfl rfl (.inr (hq r))
  unfold threadStep at hs
  cases hpc : x.pc t with
  | out => rw [hpc] at hs; cases hs
  | ret r => rw [hpc] at hs; cases hs; exact out rfl rfl (.inl rfl)
  | fetch0 k =>
    rw [hpc] at hs
    simp only at hs
    split at hs <;> (cases hs; exact out rfl rfl (.inl rfl))
  | fetch1 k =>
    rw [hpc] at hs
    obtain ⟨z, hz, e⟩ := Option.map_eq_some_iff.mp hs
    cases e
    unfold fetchLocked at hz
    split at hz
    · cases hz; exact out rfl rfl (.inl rfl)
    · split at hz
      · cases hz; exact out rfl rfl (.inl rfl)
      · simp only at hz
        split at hz
        · cases hz
        · split at hz
          · cases hz; exact out (z := { x with shared := t :: x.shared }) rfl rfl (.inl rfl)
          · cases hz
            rcases goto_gen hg with h | ⟨_, h⟩
            · exact .inl h
            · cases h; exact .inr rfl
  | fetchC k n blob p =>
    rw [hpc] at hs
    cases p with
    | ret v => cases hs; exact out (z := x.unshare t) rfl rfl (.inl rfl)
    | raise ex =>
      cases ex with
      | err e => cases hs; exact out (z := x.unshare t) rfl rfl (.inl rfl)
      | _ => cases hs
    | read => exact rd (q := .fetchC k n blob) (fun r => by rw [hpc]; rfl) hs
    | _ => cases hs
  | fetchK k n d p =>
    rw [hpc] at hs
    cases p with
    | ret v => cases hs; exact out (z := x.leave d) rfl rfl (.inl rfl)
    | raise ex =>
      cases ex with
      | err e => cases hs; exact out (z := x.leave d) rfl rfl (.inl rfl)
      | _ => cases hs
    | read => exact rd (q := .fetchK k n d) (fun r => by rw [hpc]; rfl) hs
    | _ => cases hs
  | ins0 k v =>
    rw [hpc] at hs
    simp only at hs
    split at hs <;> (cases hs; exact out rfl rfl (.inl rfl))
  | ins1 k v =>
    rw [hpc] at hs
    simp only at hs
    split at hs
    · cases hs
    · cases hs; exact out (z := { x with owner := some t }) rfl rfl (.inl rfl)
  | ins2 k v =>
    rw [hpc] at hs
    obtain ⟨z, hz, e⟩ := Option.map_eq_some_iff.mp hs
    cases e
    unfold insertLocked at hz
    split at hz
    · cases hz; exact out (z := x.release) rfl rfl (.inl rfl)
    · simp only at hz
      split at hz
      · cases hz
      · split at hz
        · cases hz; exact out (z := { x with shared := t :: x.shared }) rfl rfl (.inl rfl)
        · cases hz
          rcases goto_gen hg with h | ⟨_, h⟩
          · exact .inl h
          · cases h; exact .inr rfl
  | insC k v n blob p rest =>
    rw [hpc] at hs
    cases p with
    | ret b =>
      cases b with
      | true => cases hs; exact out (z := (x.unshare t).release) rfl rfl (.inl rfl)
      | false => cases hs; exact out (z := x.unshare t) rfl rfl (.inl rfl)
    | raise ex =>
      cases ex with
      | err e => cases hs; exact out (z := (x.unshare t).release) rfl rfl (.inl rfl)
      | _ => cases hs
    | read => exact rd (q := fun r => .insC k v n blob r rest) (fun r => by rw [hpc]; rfl) hs
    | _ => cases hs
  | insS k v p =>
    rw [hpc] at hs
    cases p with
    | ret b =>
      cases b with
      | true => cases hs; exact out (z := x.release) rfl rfl (.inl rfl)
      | false => cases hs; exact out rfl rfl (.inl rfl)
    | raise ex =>
      cases ex with
      | err e => cases hs; exact out (z := x.release) rfl rfl (.inl rfl)
      | _ => cases hs
    | read => exact rd (q := .insS k v) (fun r => by rw [hpc]; rfl) hs
    | _ => cases hs
  | insK k v n d p =>
    rw [hpc] at hs
    cases p with
    | ret b =>
      cases b with
      | true => cases hs; exact out (z := (x.leave d).release) rfl rfl (.inl rfl)
      | false => cases hs; exact out (z := x.leave d) rfl rfl (.inl rfl)
    | raise ex =>
      cases ex with
      | err e => cases hs; exact out (z := (x.leave d).release) rfl rfl (.inl rfl)
      | _ => cases hs
    | read => exact rd (q := .insK k v n d) (fun r => by rw [hpc]; rfl) hs
    | _ => cases hs
  | ins3 k v =>
    rw [hpc] at hs
    simp only at hs
    split at hs
    · split at hs
      · cases hs
      · rename_i p1 _
        cases hs
        exact out (z := { x with s := { x.s with p1 := p1 } }.release) rfl rfl (.inl rfl)
    · cases hs

/-- The phases after the announcement. -/
def Announced : FPc → Prop
  | .prep _ => False
  | _ => True

theorem go_gentex {f : Fault} {es : List Ev} (hs : threadStep c x t f = some (y, es)) :
    y.g.gen = x.g.gen ∧ y.fl = x.fl := by
  have rd : ∀ {α : Type} {p : Prog α} {q : Prog α → Pc},
      (readStep f x.seen p).map (fun r => (x.goto t (q r), ([] : List Ev))) = some (y, es) →
      y.g.gen = x.g.gen ∧ y.fl = x.fl := by
    intro α p q h
    obtain ⟨r, _, e⟩ := Option.map_eq_some_iff.mp h
    cases e
    exact ⟨rfl, rfl⟩
  unfold threadStep at hs
  cases hpc : x.pc t with
  | out => rw [hpc] at hs; cases hs
  | ret r => rw [hpc] at hs; cases hs; exact ⟨rfl, rfl⟩
  | fetch0 k =>
    rw [hpc] at hs
    simp only at hs
    split at hs <;> (cases hs; exact ⟨rfl, rfl⟩)
  | fetch1 k =>
    rw [hpc] at hs
    obtain ⟨z, hz, e⟩ := Option.map_eq_some_iff.mp hs
    cases e
    unfold fetchLocked at hz
    split at hz
    · cases hz; exact ⟨rfl, rfl⟩
    · split at hz
      · cases hz; exact ⟨rfl, rfl⟩
      · simp only at hz
        split at hz
        · cases hz
        · split at hz <;> (cases hz; exact ⟨rfl, rfl⟩)
  | fetchC k n blob p =>
    rw [hpc] at hs
    cases p with
    | ret v => cases hs; exact ⟨rfl, rfl⟩
    | raise ex =>
      cases ex with
      | err e => cases hs; exact ⟨rfl, rfl⟩
      | _ => cases hs
    | read => exact rd hs
    | _ => cases hs
  | fetchK k n d p =>
    rw [hpc] at hs
    cases p with
    | ret v => cases hs; exact ⟨unlock_gen _ _, rfl⟩
    | raise ex =>
      cases ex with
      | err e => cases hs; exact ⟨unlock_gen _ _, rfl⟩
      | _ => cases hs
    | read => exact rd hs
    | _ => cases hs
  | ins0 k v =>
    rw [hpc] at hs
    simp only at hs
    split at hs <;> (cases hs; exact ⟨rfl, rfl⟩)
  | ins1 k v =>
    rw [hpc] at hs
    simp only at hs
    split at hs
    · cases hs
    · cases hs; exact ⟨rfl, rfl⟩
  | ins2 k v =>
    rw [hpc] at hs
    obtain ⟨z, hz, e⟩ := Option.map_eq_some_iff.mp hs
    cases e
    unfold insertLocked at hz
    split at hz
    · cases hz; exact ⟨rfl, rfl⟩
    · simp only at hz
      split at hz
      · cases hz
      · split at hz <;> (cases hz; exact ⟨rfl, rfl⟩)
  | insC k v n blob p rest =>
    rw [hpc] at hs
    cases p with
    | ret b => cases b <;> (cases hs; exact ⟨rfl, rfl⟩)
    | raise ex =>
      cases ex with
      | err e => cases hs; exact ⟨rfl, rfl⟩
      | _ => cases hs
    | read => exact rd (q := fun r => .insC k v n blob r rest) hs
    | _ => cases hs
  | insS k v p =>
    rw [hpc] at hs
    cases p with
    | ret b => cases b <;> (cases hs; exact ⟨rfl, rfl⟩)
    | raise ex =>
      cases ex with
      | err e => cases hs; exact ⟨rfl, rfl⟩
      | _ => cases hs
    | read => exact rd hs
    | _ => cases hs
  | insK k v n d p =>
    rw [hpc] at hs
    cases p with
    | ret b => cases b <;> (cases hs; exact ⟨unlock_gen _ _, rfl⟩)
    | raise ex =>
      cases ex with
      | err e => cases hs; exact ⟨unlock_gen _ _, rfl⟩
      | _ => cases hs
    | read => exact rd hs
    | _ => cases hs
  | ins3 k v =>
    rw [hpc] at hs
    simp only at hs
    split at hs
    · split at hs
      · cases hs
      · cases hs; exact ⟨rfl, rfl⟩
    · cases hs

theorem announced_step (ha : Announced x.fl) {a : Act} (hn : a ≠ .flush) {es : List Ev}
    (hs : step c x a = some (y, es)) :
    Announced y.fl ∧ y.g.gen = x.g.gen ∧
    ∀ u g, genOf (y.pc u) = some g → genOf (x.pc u) = some g ∨ g = x.g.gen := by
  cases a with
  | flush => exact absurd rfl hn
  | call t op =>
    simp only [step] at hs
    cases hpc : x.pc t with
    | out =>
      rw [hpc] at hs
      simp only at hs
      split at hs
      · cases op <;>
        · cases hs
          refine ⟨ha, rfl, fun u g h => ?_⟩
          rcases goto_gen h with h | ⟨_, h⟩
          · exact .inl h
          · cases h
      · cases hs
    | _ => rw [hpc] at hs; cases hs
  | go t f =>
    simp only [step] at hs
    split at hs
    · have h1 := go_gentex hs
      exact ⟨by rw [h1.2]; exact ha, h1.1, fun u g h => go_gen hs h⟩
    · cases hs
  | goF f =>
    simp only [step] at hs
    split at hs
    · obtain ⟨z, hz, e⟩ := Option.map_eq_some_iff.mp hs
      cases e
      unfold flusherStep at hz
      cases hfl : x.fl with
      | idle => rw [hfl] at hz; cases hz
      | prep p => rw [hfl] at ha; exact ha.elim
      | log p =>
        rw [hfl] at hz
        cases p with
        | ret w =>
          simp only at hz
          split at hz
          · cases hz; exact ⟨trivial, rfl, fun u g h => .inl h⟩
          · cases hz
        | raise ex =>
          cases ex with
          | err e => cases hz; exact ⟨trivial, rfl, fun u g h => .inl h⟩
          | _ => cases hz
        | _ => cases hz; exact ⟨trivial, rfl, fun u g h => .inl h⟩
      | keys p =>
        rw [hfl] at hz
        cases p with
        | ret w =>
          simp only at hz
          split at hz
          · cases hz; exact ⟨trivial, rfl, fun u g h => .inl h⟩
          · cases hz
        | raise ex =>
          cases ex with
          | err e => cases hz; exact ⟨trivial, rfl, fun u g h => .inl h⟩
          | _ => cases hz
        | _ => cases hz; exact ⟨trivial, rfl, fun u g h => .inl h⟩
    · cases hs
  | part j =>
    simp only [step] at hs
    split at hs
    · cases hs; exact ⟨ha, rfl, fun u g h => .inl h⟩
    · cases hs

theorem announced_run : ∀ {acts : List Act} {x y : Sys} {es : List Ev}, Announced x.fl → Act.flush ∉ acts →
    run c acts x = some (y, es) → y.g.gen = x.g.gen ∧
    ∀ u g, genOf (y.pc u) = some g → genOf (x.pc u) = some g ∨ g = x.g.gen := by
  intro acts
  induction acts with
  | nil =>
    intro x y es _ _ hr
    cases hr
    exact ⟨rfl, fun u g h => .inl h⟩
  | cons a rest ih =>
    intro x y es ha hn hr
    simp only [run] at hr
    cases hs : step c x a with
    | none => rw [hs] at hr; cases hr
    | some z =>
      obtain ⟨z, es1⟩ := z
      rw [hs] at hr
      simp only at hr
      obtain ⟨w, hw, e⟩ := Option.map_eq_some_iff.mp hr
      cases e
      have h1 := announced_step ha (fun e => hn (by rw [e]; simp)) hs
      have h2 := ih h1.1 (fun h => hn (by simp [h])) hw
      refine ⟨h2.1.trans h1.2.1, fun u g h => ?_⟩
      rcases h2.2 u g h with h | h
      · exact h1.2.2 u g h
      · right; rw [h, h1.2.1]

theorem genOf_holding {g : Nat} : genOf (x.pc t) = some g ↔ Holding x t g := by
  constructor
  · intro h
    cases hpc : x.pc t with
    | fetchK k n d p => rw [hpc] at h; cases h; exact .fetch hpc
    | insK k v n d p => rw [hpc] at h; cases h; exact .insert hpc
    | _ => rw [hpc] at h; cases h
  · intro h
    cases h with
    | fetch h => rw [h]; rfl
    | insert h => rw [h]; rfl

theorem waiting_old (h : Inv c cf m lo nx F x tr) (hw : Waiting c x) :
    ∃ t g, genOf (x.pc t) = some g ∧ g < x.g.gen := by
  obtain ⟨⟨u, hu⟩, hn⟩ := hw
  have hp : x.g.prev ≠ 0 := by
    intro h0
    simp [step, Fault.mild, flusherStep, hu, h0] at hn
  obtain ⟨A, P, a1, a2, a3, a4, a5, a6⟩ := h.gen.count
  cases P with
  | nil => exact absurd a4.symm hp
  | cons t P => exact ⟨t, (a6 t).mp (by simp)⟩

end

end NuDB
