import Verif.Proof.Lifetime
import Verif.Proof.Trace
/- Properties of the abstract store that are kept over the whole life of a database. -/
namespace NuDB

open Spec Conc

section
variable {c : Cfg} {n : Nat} {short : Prop} {es e₁ e₂ e₃ : List Change} {e : Change} {st : St} {k v : Bytes}

theorem rel_answers {cf : Conf} {all : List (Bytes × Bytes)} {x : Option Store × Fs} {st : St} {fs' : Fs}
    (hR : Rel c cf short all x st) (hs : Restart x.2 fs') :
    ∃ m, Answers c cf.keySize fs' m ∧ Files st m := by
  cases hR with
  | @opened _ _ D K recs B view hS base hz hf =>
    have h1 : Safe c cf 0 (fun D' K' => D' = D ∧ K' = K) fs' := (hS.idle.safe ⟨rfl, rfl⟩ : Safe _ _ _ _ _).restart hs
    obtain ⟨D', K', ⟨rfl, rfl⟩, ha⟩ := h1.answers (by rintro D' K' ⟨rfl, rfl⟩; exact ⟨_, _, _, hS.db⟩)
    exact ⟨_, ha _ _ _ hS.db, rfl⟩
  | failed _ _ _ h1 =>
    obtain ⟨D', K', hg, ha⟩ := (h1.restart hs).answers GoalM.db
    obtain ⟨rs, B, v, g1, _, g4⟩ := hg
    exact ⟨_, ha _ _ _ g1, g4⟩
  | closed _ h1 =>
    obtain ⟨D', K', hg, ha⟩ := (h1.restart hs).answers GoalM.db
    obtain ⟨rs, B, v, g1, _, g4⟩ := hg
    exact ⟨_, ha _ _ _ g1, g4⟩

theorem lived_last (h : Lived (es ++ [e]) st) : ∃ st₀, Lived es st₀ ∧ Goes st₀ e st := by
  generalize he : es ++ [e] = es' at h
  cases h with
  | created => simp at he
  | next h h' =>
    obtain ⟨rfl, e⟩ := List.append_inj' he rfl
    cases e; exact ⟨_, h, h'⟩

theorem lived_invariant {P : St → Prop} {Q : Change → Prop} (h : Lived es st)
    (hs : ∀ x e y, Goes x e y → Q e → P x → P y) :
    ∀ {e₁ e₂ : List Change}, es = e₁ ++ e₂ → (∀ st, Lived e₁ st → P st) → (∀ e ∈ e₂, Q e) → P st := by
  induction h with
  | created =>
    intro e₁ e₂ e h0 _
    obtain ⟨rfl, rfl⟩ := List.append_eq_nil_iff.mp e.symm
    exact h0 _ .created
  | @next es e st st' h h' ih =>
    intro e₁ e₂ he h0 hq
    rcases List.eq_nil_or_concat e₂ with rfl | ⟨e₃, b, rfl⟩
    · exact h0 _ (by rw [List.append_nil] at he; rw [← he]; exact .next h h')
    · rw [List.concat_eq_append, ← List.append_assoc] at he
      obtain ⟨h1, h2⟩ := List.append_inj' he rfl
      cases h2
      exact hs _ _ _ h' (hq _ (by simp)) (ih h1 h0 (fun e he => hq e (by simp [he])))

theorem Sure.goes {x y : St} (h : Goes x e y) (hl : KeptBy e) (hx : Sure k v x) : Sure k v y := by
  cases h with
  | used h => exact hx.step h hl
  | removed hm =>
    rcases hm with rfl | rfl
    · exact ⟨hx.1, hx.1⟩
    · exact ⟨hx.2, hx.2⟩
  | interrupted | rekeyed | settled => exact hx
  | shared hs h₁ h₂ hb =>
    show Map.union _ _ k = _
    rw [hb]
    exact hs.added.stays_to (List.prefix_refl _) List.nil_prefix (by rw [← hx, union_empty_right]; rfl)
  | @ended d _ _ _ _ _ hs h₁ h₂ h₃ h₄ =>
    have hd : contents d [] k = some v := by rw [← hx, union_empty_right]; rfl
    exact ⟨hs.added.stays_to h₂ List.nil_prefix hd, hs.added.stays_to h₄ List.nil_prefix hd⟩

theorem Durable.goes {x y : St} (h : Goes x e y) (hx : Durable k v x) : Durable k v y := by
  cases h with
  | used h => exact hx.step h
  | removed hm =>
    rcases hm with rfl | rfl
    · exact ⟨hx.1, hx.1⟩
    · exact ⟨hx.2, hx.2⟩
  | interrupted | rekeyed | settled => exact hx
  | shared hs h₁ h₂ hb => exact hs.added.stays_to h₂ List.nil_prefix hx
  | ended hs h₁ h₂ h₃ h₄ => exact ⟨hs.added.stays_to h₂ List.nil_prefix hx, hs.added.stays_to h₄ List.nil_prefix hx⟩

/-- A pair that is certainly there stays. -/
theorem sure_from (h : Lived (e₁ ++ e₂) st) (h0 : ∀ st, Lived e₁ st → Sure k v st) (hk : ∀ e ∈ e₂, KeptBy e) :
    Sure k v st :=
  lived_invariant (Q := KeptBy) h (fun _ _ _ h hl hx => hx.goes h hl) rfl h0 hk

theorem durable_from (h : Lived (e₁ ++ e₂) st) (h0 : ∀ st, Lived e₁ st → Durable k v st) : Durable k v st :=
  lived_invariant (Q := fun _ => True) h (fun _ _ _ h _ hx => hx.goes h) rfl h0 (fun _ _ => trivial)

/-- A flush makes it permanent. -/
theorem durable_flush {op : Op} {y : Bool} (h : Lived (e₁ ++ [.used (.call op .done y)] ++ e₂) st)
    (h0 : ∀ st, Lived e₁ st → Sure k v st) (hop : op = .flush ∨ op = .close) : Durable k v st := by
  refine durable_from h ?_
  intro st h
  obtain ⟨st₀, h1, h⟩ := lived_last h
  have h2 := h0 _ h1
  cases h with
  | used h =>
    rcases hop with rfl | rfl
    · cases h with
      | flush => exact h2
    · cases h with
      | close => exact ⟨h2, h2⟩

/-- After a pair was inserted. -/
theorem sure_inserted {x : Bool} (h : Lived (e₁ ++ [.used (.call (.insert k v) .done x)] ++ e₂) st)
    (hk : ∀ e ∈ e₂, KeptBy e) : Sure k v st := by
  refine sure_from h ?_ hk
  intro st h
  obtain ⟨st₀, _, h⟩ := lived_last h
  cases h with
  | used h =>
    cases h with
    | insertNew hn =>
      show Map.union _ _ k = _
      simp only [Map.union, Option.or_eq_none_iff] at hn
      simp [Map.union, Map.add, hn.1]

theorem durable_flushed {x y : Bool} {op : Op}
    (h : Lived (e₁ ++ [.used (.call (.insert k v) .done x)] ++ e₂ ++ [.used (.call op .done y)] ++ e₃) st)
    (hk : ∀ e ∈ e₂, KeptBy e) (hop : op = .flush ∨ op = .close) : Durable k v st :=
  durable_flush h (fun _ h => sure_inserted h hk) hop

/-- The files hold what is durable. -/
theorem Durable.files {mp : Map} (h : Durable k v st) (hf : Files st mp) : mp k = some v := by
  cases st with
  | opened d b => rw [show mp = d from hf]; exact h
  | failed m₀ m₁ =>
    rcases hf with rfl | rfl
    · exact h.1
    · exact h.2
  | closed m₀ m₁ =>
    rcases hf with rfl | rfl
    · exact h.1
    · exact h.2

variable {m : Map} {F : Prop} {tr pre mid post : List Ev} {t : Nat}

/-- An `insert` that returned. -/
theorem Spec.Session.inserted (h : Session m F tr) (hi : Call tr t (.insert k v) .done pre mid post) :
    contents m tr k = some v := by
  obtain ⟨k', v', a, b, e1, e2⟩ := (h.calls _ _ _ _ _ _ hi).done
  cases e1
  refine h.added.stays_to (List.prefix_refl _) (a := pre ++ .call t (.insert k v) :: a ++ [.added t k v]) ?_ (contents_at ..)
  refine ⟨b ++ .ret t .done :: post, ?_⟩
  rw [hi.1, e2]
  simp

theorem Spec.Session.prefix (h : Session m F tr) {kept : List Ev} (hk : kept <+: tr) : Session m F kept := by
  obtain ⟨l, rfl⟩ := hk
  refine ⟨fun t op r pre mid post hc => ?_, h.added.prefix ⟨l, rfl⟩⟩
  exact h.calls t op r pre mid (post ++ l) ⟨by rw [hc.1]; simp, hc.2⟩

/-- Every pair was passed to an `insert`. -/
theorem Spec.Owned.passed {now : List Ev} (h : Owned m tr) (hn : now <+: tr) (hkv : contents m now k = some v) :
    m k = some v ∨ ∃ t, .call t (.insert k v) ∈ tr := by
  cases hm : m k with
  | some u => left; rw [← hkv]; exact (h.stays_to hn List.nil_prefix hm).symm
  | none =>
    right
    obtain ⟨p, t, v', q, e⟩ := contents_some (tr := now) hm (by rw [hkv]; exact nofun)
    have e2 : contents m now k = some v' :=
      h.stays_to hn (a := p ++ [.added t k v']) ⟨q, by rw [e]; simp⟩ (contents_at ..)
    rw [hkv] at e2
    cases e2
    obtain ⟨q', rfl⟩ := hn
    obtain ⟨_, p', mid, e3, _⟩ := h p t k v (q ++ q') (by rw [e]; simp)
    exact ⟨t, by rw [e, e3]; simp⟩

/-- The pair is in one of the maps. -/
def Possible (k v : Bytes) : St → Prop
  | .opened d b => d k = some v ∨ Map.union d b k = some v
  | .failed m₀ m₁ => m₀ k = some v ∨ m₁ k = some v
  | .closed m₀ m₁ => m₀ k = some v ∨ m₁ k = some v

theorem Possible.step {x y : St} {l : Label} (h : Step x l y) (hy : Possible k v y) :
    Possible k v x ∨ Passed k v (.used l) := by
  have hu : ∀ {d : Map}, d k = some v ∨ Map.union d Map.empty k = some v → d k = some v := by
    intro d h
    rw [union_empty_right] at h
    exact h.elim id id
  cases h with
  | @insertNew d b k' v' _ h =>
    rcases hy with hy | hy
    · exact .inl (.inl hy)
    · unfold Map.union Map.add at hy
      cases e : d k with
      | some u => rw [e] at hy; exact .inl (.inl (e.trans hy))
      | none =>
        rw [e] at hy
        simp only [Option.none_or] at hy
        split at hy
        · rename_i e'
          cases e'; cases hy
          exact .inr .used
        · exact .inl (.inr (by rw [Map.union, e]; exact hy))
  | insertOld | fetchHit | fetchMiss | insertErr | fetchErr | openErr | dead | deadClose | dieFailed | dieClosed =>
    exact .inl hy
  | flush => exact .inl (.inr (hu hy))
  | close => exact .inl (.inr (hy.elim id id))
  | open₀ => exact .inl (.inl (hu hy))
  | open₁ => exact .inl (.inr (hu hy))
  | flushErr | closeErr | die => exact .inl hy

theorem Possible.goes {x y : St} (h : Goes x e y) (hy : Possible k v y) : Possible k v x ∨ Passed k v e := by
  cases h with
  | used h => exact hy.step h
  | removed hm =>
    left
    rcases hm with rfl | rfl
    · exact .inl (hy.elim id id)
    · exact .inr (hy.elim id id)
  | interrupted | rekeyed | settled => exact .inl hy
  | shared hs h₁ h₂ hb =>
    rcases hy with hy | hy
    · exact (hs.added.passed h₂ hy).imp .inl (fun ⟨t, h⟩ => .shared h)
    · rw [hb] at hy
      exact (hs.added.passed (List.prefix_refl _) hy).imp .inl (fun ⟨t, h⟩ => .shared h)
  | ended hs h₁ h₂ h₃ h₄ =>
    rcases hy with hy | hy
    · exact (hs.added.passed h₂ hy).imp .inl (fun ⟨t, h⟩ => .ended h)
    · exact (hs.added.passed h₄ hy).imp .inl (fun ⟨t, h⟩ => .ended h)

theorem possible_passed (h : Lived es st) (hp : Possible k v st) : ∃ e ∈ es, Passed k v e := by
  induction h with
  | created => rcases hp with hp | hp <;> cases hp
  | next _ h' ih =>
    rcases hp.goes h' with hp | hp
    · obtain ⟨e, h1, h2⟩ := ih hp
      exact ⟨e, by simp [h1], h2⟩
    · exact ⟨_, by simp, hp⟩

end

section
variable {c : Cfg} {x y : Sys} {t u : Nat}

theorem goto_pc {q : Pc} (hu : u ≠ t) : (x.goto t q).pc u = x.pc u := by simp [Sys.goto, hu]

theorem threadStep_pc {f : Fault} {es : List Ev} (hs : threadStep c x t f = some (y, es)) (hu : u ≠ t) : y.pc u = x.pc u := by
  unfold threadStep fetchLocked insertLocked at hs
  repeat' split at hs
  all_goals first
    | cases hs; done
    | (cases hs; exact goto_pc hu)
    | (obtain ⟨r, hr, e⟩ := Option.map_eq_some_iff.mp hs; cases e; exact goto_pc hu)
    | (obtain ⟨r, hr, e⟩ := Option.map_eq_some_iff.mp hs; repeat' split at hr
       all_goals first
         | cases hr; done
         | (cases hr; cases e; exact goto_pc hu))

theorem flusherStep_pc {f : Fault} (hs : flusherStep c x f = some y) : y.pc = x.pc := by
  unfold flusherStep at hs
  repeat' split at hs
  all_goals first
    | cases hs; done
    | (cases hs; rfl)

theorem flushStart_pc (hs : flushStart c x = some y) : y.pc = x.pc := by
  unfold flushStart at hs
  repeat' split at hs
  all_goals first
    | cases hs; done
    | (cases hs; rfl)

/-- Threads that are not mentioned do nothing. -/
def actor : Act → Option Nat
  | .call t _ => some t
  | .go t _ => some t
  | _ => none

theorem step_pc {a : Act} {es : List Ev} (hs : step c x a = some (y, es)) (hu : actor a ≠ some u) : y.pc u = x.pc u := by
  cases a with
  | call t op =>
    have hu' : u ≠ t := fun e => hu (by rw [e]; rfl)
    simp only [step] at hs
    repeat' split at hs
    all_goals first
      | cases hs; done
      | (cases hs; exact goto_pc hu')
  | go t f =>
    simp only [step] at hs
    split at hs
    · exact threadStep_pc hs (fun e => hu (by rw [e]; rfl))
    · cases hs
  | flush =>
    obtain ⟨z, h, e⟩ := Option.map_eq_some_iff.mp hs
    cases e; rw [flushStart_pc h]
  | goF f =>
    simp only [step] at hs
    split at hs
    · obtain ⟨z, h, e⟩ := Option.map_eq_some_iff.mp hs
      cases e; rw [flusherStep_pc h]
    · cases hs
  | part j =>
    simp only [step] at hs
    split at hs <;> cases hs
    rfl

theorem run_pc : ∀ {acts : List Act} {x y : Sys} {es : List Ev}, run c acts x = some (y, es) →
    (∀ a ∈ acts, actor a ≠ some u) → y.pc u = x.pc u := by
  intro acts
  induction acts with
  | nil => intro x y es hr _; cases hr; rfl
  | cons a acts ih =>
    intro x y es hr hu
    simp only [run] at hr
    split at hr
    · cases hr
    · rename_i z es1 hs
      obtain ⟨r, hr', e⟩ := Option.map_eq_some_iff.mp hr
      cases e
      rw [ih hr' (fun a ha => hu a (by simp [ha])), step_pc hs (hu a (by simp))]

end

end NuDB
