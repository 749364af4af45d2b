import Verif.Proof.Refine
/-
Consequences of the simulation: facts about histories.
-/
namespace NuDB

open Spec

theorem Spec.Run.append {τ : Type} {step : τ → Label → τ → Prop} {a b d : τ} {t₁ t₂ : List Label}
    (h₁ : Run step a t₁ b) (h₂ : Run step b t₂ d) : Run step a (t₁ ++ t₂) d := by
  induction h₂ with
  | nil => simpa using h₁
  | snoc _ h' ih => rw [← List.append_assoc]; exact .snoc ih h'

theorem Spec.Run.split {τ : Type} {step : τ → Label → τ → Prop} {a d : τ} {t : List Label}
    (h : Run step a t d) : ∀ {t₁ t₂ : List Label}, t = t₁ ++ t₂ → ∃ b, Run step a t₁ b ∧ Run step b t₂ d := by
  induction h with
  | nil =>
    intro t₁ t₂ e
    have := List.append_eq_nil_iff.mp e.symm
    obtain ⟨rfl, rfl⟩ := this
    exact ⟨_, .nil _, .nil _⟩
  | @snoc b d t l h h' ih =>
    intro t₁ t₂ e
    rcases List.eq_nil_or_concat t₂ with rfl | ⟨t₃, l', rfl⟩
    · rw [List.append_nil] at e
      subst e
      exact ⟨d, .snoc h h', .nil _⟩
    · rw [List.concat_eq_append, ← List.append_assoc] at e
      obtain ⟨e1, e2⟩ := List.append_inj' e rfl
      obtain ⟨b', h1, h2⟩ := ih e1
      obtain rfl : l = l' := by simpa using e2
      exact ⟨b', h1, by rw [List.concat_eq_append]; exact .snoc h2 h'⟩

theorem Spec.Run.single {τ : Type} {step : τ → Label → τ → Prop} {a d : τ} {l : Label}
    (h : Run step a [l] d) : step a l d := by
  generalize ht : [l] = t at h
  cases h with
  | nil => simp at ht
  | @snoc b _ t l' h h' =>
    have ht' : ([] : List Label) ++ [l] = t ++ [l'] := ht
    obtain ⟨e1, e2⟩ := List.append_inj' ht' rfl
    obtain rfl : l = l' := by simpa using e2
    subst e1
    generalize he : ([] : List Label) = u at h
    cases h with
    | nil => exact h'
    | snoc _ _ => simp at he

theorem Spec.Run.invariant {τ : Type} {step : τ → Label → τ → Prop} {P : τ → Prop} {Q : Label → Prop} {a d : τ}
    {t : List Label} (h : Run step a t d) (hs : ∀ x l y, step x l y → Q l → P x → P y)
    (hq : ∀ l ∈ t, Q l) (ha : P a) : P d := by
  induction h with
  | nil => exact ha
  | snoc _ h' ih => exact hs _ _ _ h' (hq _ (by simp)) (ih (fun l hl => hq l (by simp [hl])))

/-- The pair is in the map, and nothing is amiss. -/
def Sure (k v : Bytes) : St → Prop
  | .opened d b => Map.union d b k = some v
  | .failed _ _ => False
  | .closed m₀ m₁ => m₀ k = some v ∧ m₁ k = some v

theorem union_left {d b : Map} {k v : Bytes} (h : d k = some v) : Map.union d b k = some v := by
  simp [Map.union, h]

theorem union_empty_right (d : Map) : Map.union d Map.empty = d := by
  funext k; simp [Map.union, Map.empty]

theorem union_add {d b : Map} {k v k' v' : Bytes} (h : Map.union d b k' = none) (hk : Map.union d b k = some v) :
    Map.union d (b.add k' v') k = some v := by
  unfold Map.union Map.add at *
  by_cases e : k = k'
  · subst e; rw [h] at hk; simp at hk
  · simpa [e] using hk

theorem Sure.step {k v : Bytes} {x y : St} {l : Label} (h : Step x l y) (hl : Kept l) (hx : Sure k v x) : Sure k v y := by
  cases h with
  | insertNew h => exact union_add h hx
  | insertOld | fetchHit | fetchMiss | insertErr | fetchErr => exact hx
  | flush => show Map.union _ _ k = _; rw [union_empty_right]; exact hx
  | close => exact ⟨hx, hx⟩
  | open₀ => show Map.union _ _ k = _; rw [union_empty_right]; exact hx.1
  | open₁ => show Map.union _ _ k = _; rw [union_empty_right]; exact hx.2
  | openErr => exact hx
  | flushErr => exact absurd hl (by simp [Kept])
  | closeErr => exact absurd hl (by simp [Kept])
  | dead => exact hx.elim
  | deadClose => exact hx.elim
  | die | dieFailed | dieClosed => exact hl.elim

/-- The pair is in the map and stays there. -/
def Durable (k v : Bytes) : St → Prop
  | .opened d _ => d k = some v
  | .failed m₀ m₁ => m₀ k = some v ∧ m₁ k = some v
  | .closed m₀ m₁ => m₀ k = some v ∧ m₁ k = some v

theorem Durable.step {k v : Bytes} {x y : St} {l : Label} (h : Step x l y) (hx : Durable k v x) : Durable k v y := by
  cases h with
  | insertNew h => exact hx
  | insertOld | fetchHit | fetchMiss | insertErr | fetchErr => exact hx
  | flush => exact union_left hx
  | close => exact ⟨union_left hx, union_left hx⟩
  | open₀ => exact hx.1
  | open₁ => exact hx.2
  | openErr => exact hx
  | flushErr | closeErr | die => exact ⟨hx, union_left hx⟩
  | dead => exact hx
  | deadClose => exact hx
  | dieFailed => exact hx
  | dieClosed => exact hx

/-- The key is in no map. -/
def Absent (k : Bytes) : St → Prop
  | .opened d b => d k = none ∧ b k = none
  | .failed m₀ m₁ => m₀ k = none ∧ m₁ k = none
  | .closed m₀ m₁ => m₀ k = none ∧ m₁ k = none

theorem union_none {d b : Map} {k : Bytes} (h : d k = none ∧ b k = none) : Map.union d b k = none := by
  simp [Map.union, h.1, h.2]

theorem Absent.step {k : Bytes} {x y : St} {l : Label} (h : Step x l y)
    (hl : ∀ v x, l ≠ .call (.insert k v) .done x) (hx : Absent k x) : Absent k y := by
  cases h with
  | @insertNew d b k' v' x' h =>
    refine ⟨hx.1, ?_⟩
    unfold Map.add
    by_cases e : k = k'
    · subst e; exact absurd rfl (hl v' x')
    · rw [if_neg e]; exact hx.2
  | insertOld | fetchHit | fetchMiss | insertErr | fetchErr => exact hx
  | flush => exact ⟨union_none hx, rfl⟩
  | close => exact ⟨union_none hx, union_none hx⟩
  | open₀ => exact ⟨hx.1, rfl⟩
  | open₁ => exact ⟨hx.2, rfl⟩
  | openErr => exact hx
  | flushErr | closeErr | die => exact ⟨hx.1, union_none hx⟩
  | dead => exact hx
  | deadClose => exact hx
  | dieFailed => exact hx
  | dieClosed => exact hx

section
variable {c : Cfg} {cf : Conf} {short : Prop} {a : CreateArgs} {lf : Nat}

/-- After an accepted insertion that was not lost. -/
theorem reachable_sure {t₁ t₂ : List Label} {k v : Bytes} {x : Bool} {sys : Option Store × Fs}
    (hc : Creatable a lf) (hr : Reachable c a short (t₁ ++ [.call (.insert k v) .done x] ++ t₂) sys)
    (hk : ∀ l ∈ t₂, Kept l) :
    k.length = a.keySize ∧ ∃ all st, Sure k v st ∧ Rel c (a.conf lf) short all sys st := by
  constructor
  · obtain ⟨σ, asserts, w₀, w₁, h0, h1, h2⟩ := hr
    obtain ⟨y, h3, _⟩ := h2.split rfl
    obtain ⟨z, _, h4⟩ := h3.split rfl
    cases h4.single with
    | @call so so' fs w' op ret x w σ ha hm hw h hx =>
      cases so with
      | none => exact ha.elim
      | some s => exact ha.1
  · obtain ⟨st, h1, h2⟩ := simulation hc hr
    refine ⟨_, st, ?_, h2⟩
    obtain ⟨y, h3, h5⟩ := h1.split rfl
    obtain ⟨z, _, h4⟩ := h3.split rfl
    have hy : Sure k v y := by
      cases h4.single with
      | insertNew h =>
        show Map.union _ _ k = _
        simp only [Map.union, Option.or_eq_none_iff] at h
        simp [Map.union, Map.add, h.1]
    exact h5.invariant (P := Sure k v) (Q := Kept) (fun _ _ _ h hl hx => hx.step h hl) hk hy

theorem reachable_absent {t : List Label} {k : Bytes} {sys : Option Store × Fs}
    (hc : Creatable a lf) (hr : Reachable c a short t sys)
    (hk : ∀ v x, .call (.insert k v) .done x ∉ t) :
    ∃ all st, Absent k st ∧ Rel c (a.conf lf) short all sys st := by
  obtain ⟨st, h1, h2⟩ := simulation hc hr
  refine ⟨_, st, ?_, h2⟩
  exact h1.invariant (P := Absent k) (Q := fun l => ∀ v x, l ≠ .call (.insert k v) .done x)
    (fun _ _ _ h hl hx => hx.step h hl) (fun l hl v x e => hk v x (e ▸ hl)) ⟨rfl, rfl⟩

theorem Rel.ec {all : List (Bytes × Bytes)} {x : Option Store × Fs} {st : St} (h : Rel c cf short all x st)
    {d b : Map} {s : Store} (e : st = .opened d b) (es : x.1 = some s) : s.ec = none := by
  cases h with
  | opened hS => cases es; exact hS.ec
  | failed => cases e
  | closed => cases e

/-- All outcomes of a lookup. -/
theorem Sess.fetch_cases {s : Store} {fs : Fs} {D K : Bytes} {recs : List Rec} {B : Nat} {view : View}
    (h : Sess c cf s fs D K recs B view) {k : Bytes} (hk : k.length = cf.keySize) (σ : Schedule) (w : World)
    (hw : w.fs = fs) :
    (fetch c s k σ w).2.fs = fs ∧
    ((∃ v, (fetch c s k σ w).1 = .ok v ∧ kvOf (pairsOf recs ++ poolPairs s.p1) k = some v) ∨
      ((fetch c s k σ w).1 = .error (.err .key_not_found) ∧ kvOf (pairsOf recs ++ poolPairs s.p1) k = none) ∨
      (Disturbed σ ∧ ((fetch c s k σ w).1 = .error (.err .io) ∨ (fetch c s k σ w).1 = .error .crash))) := by
  subst hw
  have h1 : wp σ (fetch c s k) (fun v w' => Quiet w w' ∧ kvOf (pairsOf recs ++ poolPairs s.p1) k = some v)
      (fun x w' => Quiet w w' ∧ (x = .err .key_not_found ∧ kvOf (pairsOf recs ++ poolPairs s.p1) k = none ∨
        Faulty σ ∧ IsFault x)) w := by
    apply wp_fetch h.ready h.ec hk
    · intro v w' hq hv; rw [h.answer] at hv; exact ⟨hq, hv⟩
    · intro w' hq hv; rw [h.answer] at hv; exact ⟨hq, .inl ⟨rfl, hv⟩⟩
    · intro x w' hx hf hq; exact ⟨hq, .inr ⟨hf, hx⟩⟩
  unfold wp at h1
  split at h1
  · rename_i v w' e; rw [e]; exact ⟨h1.1.fs, .inl ⟨v, rfl, h1.2⟩⟩
  · rename_i x w' e; rw [e]
    refine ⟨h1.1.fs, .inr ?_⟩
    rcases h1.2 with ⟨rfl, h2⟩ | ⟨h2, rfl | rfl⟩
    · exact .inl ⟨rfl, h2⟩
    · exact .inr ⟨h2, .inr rfl⟩
    · exact .inr ⟨h2, .inl rfl⟩

/-- All outcomes of an insertion. -/
theorem Sess.insert_cases {s : Store} {fs : Fs} {D K : Bytes} {recs : List Rec} {B : Nat} {view : View}
    (h : Sess c cf s fs D K recs B view) {k u : Bytes} (hk : k.length = cf.keySize) (h1 : 1 ≤ u.length)
    (h2 : u.length < 2 ^ 32) (σ : Schedule) (w : World) (hw : w.fs = fs) :
    (insert c s k u σ w).2.fs = fs ∧
    ((∃ s', (insert c s k u σ w).1 = .ok s' ∧ kvOf (pairsOf recs ++ poolPairs s.p1) k = none ∧
        Sess c cf s' fs D K recs B view ∧ (poolPairs s'.p1).Perm ((k, u) :: poolPairs s.p1)) ∨
      ((insert c s k u σ w).1 = .error (.err .key_exists) ∧ (kvOf (pairsOf recs ++ poolPairs s.p1) k).isSome) ∨
      (Disturbed σ ∧ ((insert c s k u σ w).1 = .error (.err .io) ∨ (insert c s k u σ w).1 = .error .crash))) := by
  subst hw
  have h1 : wp σ (insert c s k u) (fun s' w' => Quiet w w' ∧ kvOf (pairsOf recs ++ poolPairs s.p1) k = none ∧
        Sess c cf s' w.fs D K recs B view ∧ (poolPairs s'.p1).Perm ((k, u) :: poolPairs s.p1))
      (fun x w' => Quiet w w' ∧ (x = .err .key_exists ∧ (kvOf (pairsOf recs ++ poolPairs s.p1) k).isSome ∨
        Faulty σ ∧ IsFault x)) w := by
    apply wp_insert h hk h1 h2
    · intro s' w' hq hv hS e
      refine ⟨hq, hv, hq.fs ▸ hS, ?_⟩
      rw [e]
      exact poolPairs_perm (place_perm _ _)
    · intro w' hq hv; exact ⟨hq, .inl ⟨rfl, hv⟩⟩
    · intro x w' hx hf hq; exact ⟨hq, .inr ⟨hf, hx⟩⟩
  unfold wp at h1
  split at h1
  · rename_i v w' e; rw [e]; exact ⟨h1.1.fs, .inl ⟨v, rfl, h1.2⟩⟩
  · rename_i x w' e; rw [e]
    refine ⟨h1.1.fs, .inr ?_⟩
    rcases h1.2 with ⟨rfl, h2⟩ | ⟨h2, rfl | rfl⟩
    · exact .inl ⟨rfl, h2⟩
    · exact .inr ⟨h2, .inr rfl⟩
    · exact .inr ⟨h2, .inl rfl⟩

theorem Fits.few {n : Nat} {ps all : List (Bytes × Bytes)} (h : Few ps all) (hf : Fits n all) : Fits n ps := by
  have h1 := h.len
  have h2 := h.vol
  obtain ⟨f1, f2⟩ := hf
  refine ⟨?_, by omega⟩
  have : ps.length * (ps.length + 1) * (8 + n) ≤ all.length * (all.length + 1) * (8 + n) :=
    Nat.mul_le_mul (Nat.mul_le_mul h1 (by omega)) (Nat.le_refl _)
  omega

theorem Few.gain {all pre : List (Bytes × Bytes)} (h : Few all pre) (op : Op) (r : Ret) :
    Few (all ++ gain op r) (pre ++ attempted [op]) := by
  have h1 := h.len
  have h2 := h.vol
  have : Few (NuDB.gain op r) (attempted [op]) := by
    unfold NuDB.gain
    cases op <;> cases r <;> first | exact Few.refl _ | exact ⟨Nat.zero_le _, Nat.zero_le _⟩
  have h3 := this.len
  have h4 := this.vol
  exact ⟨by simp only [List.length_append]; omega, by simp only [volume_append]; omega⟩

/-- The abstract state of an undisturbed store. -/
def Plain (o : Bool) (m : Map) : St → Prop
  | .opened d b => o = true ∧ Map.union d b = m
  | .closed m₀ m₁ => o = false ∧ m₀ = m ∧ m₁ = m
  | .failed _ _ => False

theorem union_add_eq {d b m : Map} (h : Map.union d b = m) {k : Bytes} (hk : m k = none) (v : Bytes) :
    Map.union d (b.add k v) = m.add k v := by
  subst h
  funext k'
  simp only [Map.union, Map.add, Option.or_eq_none_iff] at *
  by_cases e : k' = k
  · subst e; simp [hk.1]
  · simp [e]

/-- One undisturbed call. -/
theorem plain_step {o : Bool} {m : Map} {st st' : St} {op : Op} {r : Ret} {ops : List Op} {rets : List Ret}
    (hp : Plain o m st) (h : Step st (.call op r false) st') (hm : mapOps (op :: ops) o m = some rets) :
    ∃ o' m' rets', rets = r :: rets' ∧ Plain o' m' st' ∧ mapOps ops o' m' = some rets' := by
  cases h with
  | @insertNew d b k v x h =>
    obtain ⟨rfl, hu⟩ := hp
    rw [hu] at h
    simp only [mapOps, h, Option.map_eq_some_iff] at hm
    obtain ⟨rs, h1, rfl⟩ := hm
    exact ⟨true, _, rs, rfl, ⟨rfl, union_add_eq hu h v⟩, h1⟩
  | insertOld h =>
    obtain ⟨rfl, rfl⟩ := hp
    simp only [mapOps, h, Option.map_eq_some_iff] at hm
    obtain ⟨rs, h1, rfl⟩ := hm
    exact ⟨true, _, rs, rfl, ⟨rfl, rfl⟩, h1⟩
  | fetchHit h =>
    obtain ⟨rfl, rfl⟩ := hp
    simp only [mapOps, h, Option.map_eq_some_iff] at hm
    obtain ⟨rs, h1, rfl⟩ := hm
    exact ⟨true, _, rs, rfl, ⟨rfl, rfl⟩, h1⟩
  | fetchMiss h =>
    obtain ⟨rfl, rfl⟩ := hp
    simp only [mapOps, h, Option.map_eq_some_iff] at hm
    obtain ⟨rs, h1, rfl⟩ := hm
    exact ⟨true, _, rs, rfl, ⟨rfl, rfl⟩, h1⟩
  | flush =>
    obtain ⟨rfl, rfl⟩ := hp
    simp only [mapOps, Option.map_eq_some_iff] at hm
    obtain ⟨rs, h1, rfl⟩ := hm
    exact ⟨true, _, rs, rfl, ⟨rfl, union_empty_right _⟩, h1⟩
  | close =>
    obtain ⟨rfl, rfl⟩ := hp
    simp only [mapOps, Option.map_eq_some_iff] at hm
    obtain ⟨rs, h1, rfl⟩ := hm
    exact ⟨false, _, rs, rfl, ⟨rfl, rfl, rfl⟩, h1⟩
  | open₀ =>
    obtain ⟨rfl, rfl, rfl⟩ := hp
    simp only [mapOps, Option.map_eq_some_iff] at hm
    obtain ⟨rs, h1, rfl⟩ := hm
    exact ⟨true, _, rs, rfl, ⟨rfl, union_empty_right _⟩, h1⟩
  | open₁ =>
    obtain ⟨rfl, rfl, h3⟩ := hp
    subst h3
    simp only [mapOps, Option.map_eq_some_iff] at hm
    obtain ⟨rs, h1, rfl⟩ := hm
    exact ⟨true, _, rs, rfl, ⟨rfl, union_empty_right _⟩, h1⟩
  | dead => exact hp.elim
  | deadClose => exact hp.elim

theorem allowed_of_map {o : Bool} {m : Map} {op : Op} {ops : List Op} {rets : List Ret} {so : Option Store} {n : Nat}
    (ho : so.isSome = o) (hs : op.Sound n) (hm : mapOps (op :: ops) o m = some rets) : Allowed n op so := by
  subst ho
  cases op <;> cases so <;> first | exact hs | exact trivial | (simp [mapOps] at hm)

theorem Rel.isSome {all : List (Bytes × Bytes)} {x : Option Store × Fs} {st : St} {o : Bool} {m : Map}
    (h : Rel c cf short all x st) (hp : Plain o m st) : x.1.isSome = o := by
  cases h with
  | opened => exact hp.1.symm
  | failed => exact hp.elim
  | closed => exact hp.1.symm

theorem runOps_sound (hcf : cf.Ok) (ops : List Op) : ∀ {so : Option Store} {w : World} {st : St} {o : Bool} {m : Map}
    {all pre : List (Bytes × Bytes)} {rets : List Ret},
    Rel c cf False all (so, w.fs) st → Plain o m st → (∀ op ∈ ops, op.Sound cf.keySize) →
    mapOps ops o m = some rets → Few all pre →
    (∃ so' w', runOps c ops so calm w = (.ok (rets, so'), w')) ∨
    (∃ w', runOps c ops so calm w = (.error .abort, w') ∧ ¬ Fits cf.blockSize (pre ++ attempted ops) ∧
      ((pre ++ attempted ops).length < 2 ^ 32 → Big w'.fs)) := by
  induction ops with
  | nil =>
    intro so w st o m all pre rets _ _ _ hm _
    simp only [mapOps, Option.some.injEq] at hm
    subst hm
    exact .inl ⟨so, w, rfl⟩
  | cons op ops ih =>
    intro so w st o m all pre rets hR hp hs hm hf
    have ha := allowed_of_map (hR.isSome hp) (hs op (by simp)) hm
    have h1 := perform_sound (σ := calm) hcf hR ha ⟨fun _ => .inl calm_nofail, fun h => h.elim⟩ rfl
    have e : attempted (op :: ops) = attempted [op] ++ attempted ops := by
      unfold attempted; rw [← List.filterMap_append]; rfl
    rw [e, ← List.append_assoc]
    unfold runOps
    simp only [bind, M.bind]
    unfold wp at h1
    split at h1
    · rename_i r w' er
      obtain ⟨so', r⟩ := r
      obtain ⟨st', hst, hR'⟩ := h1 false (fun h => absurd h not_faulty_calm)
      obtain ⟨o', m', rets', rfl, hp', hm'⟩ := plain_step hp hst hm
      rw [er]
      rcases ih hR' hp' (fun o ho => hs o (by simp [ho])) hm' (hf.gain op r) with ⟨so'', w'', e2⟩ | ⟨w'', e2, h⟩
      · left
        simp only
        rw [e2]
        exact ⟨so'', w'', rfl⟩
      · right
        simp only
        rw [e2]
        exact ⟨w'', rfl, h⟩
    · rename_i x w' er
      rcases h1.1 with ⟨_, h⟩ | ⟨rfl, h⟩
      · exact absurd h not_faulty_calm
      · right
        rw [er]
        have hl := hf.len
        refine ⟨w', rfl, fun hF => h.1 (Fits.few (Few.mk ?_ ?_) hF), fun hF => h.2 ?_⟩
        · simp only [List.length_append]; omega
        · have := hf.vol; simp only [volume_append]; omega
        · simp only [List.length_append] at hF; exact .inl (by omega)

theorem attempted_nil : attempted [] = [] := rfl

end

end NuDB
