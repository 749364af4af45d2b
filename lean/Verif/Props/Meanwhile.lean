import Verif.Proof.Meanwhile
import Verif.Proof.Toward
import Verif.Props.Visit
import Verif.Props.Append
/-
C87: iteration over the data file while the database is in use.
-/
namespace NuDB

open Spec Meanwhile

variable {c : Cfg} {ks : Nat}

/-- If nobody changes the files, this is `visit`. -/
theorem C87_alone (cb : List Event → Option Err) {σ : Schedule} {w : World} {f : FileSt} (hf : w.fs .dat = some f)
    (h92 : 92 ≤ f.cur.length) :
    (visitMean c (fun _ => w.fs) cb σ w).1 = (visit c cb σ w).1 ∧
      (visitMean c (fun _ => w.fs) cb σ w).2.out = (visit c cb σ w).2.out := by
  have h := visit_frozen (σ := σ) (env := fun _ => w.fs) (fun i => ⟨f, f, hf, hf, List.prefix_refl _⟩) c cb (w := w) hf h92 hf
  have e : withCopy f w = w := by
    unfold withCopy
    have : w.fs.set .dat (some f) = w.fs := by
      funext p
      unfold Fs.set
      split
      · rename_i hp; rw [hp, hf]
      · rfl
    rw [this]
  rw [e] at h
  exact h

/-- C87: while others append to the data file, `visit` does exactly what it does on a copy of
the data file made when it asks for the size: the outcome is the same, and so are the calls
of the callback and of the progress function, with any callback and any faults. -/
theorem C87_copy {env : FilesAt} (hg : AppendsOnly env) (cb : List Event → Option Err) {σ : Schedule} {w : World}
    {f g : FileSt} (hf : env w.clock .dat = some f) (h92 : 92 ≤ f.cur.length) (hm : whenSized env w .dat = some g) :
    (visitMean c env cb σ w).1 = (visit c cb σ (withCopy g w)).1 ∧
      (visitMean c env cb σ w).2.out = (visit c cb σ (withCopy g w)).2.out :=
  visit_frozen hg c cb hf h92 hm

/-- C87: if the data file consists of complete records at that moment, `visit` succeeds and
gives the pairs of these records to the callback, in the order of the file. If a file
operation is disturbed, an initial part of them. -/
theorem C87_complete {env : FilesAt} (hg : AppendsOnly env) {σ : Schedule} {w w' : World} {f g : FileSt}
    {rs : List Record} {res : Except Exc Unit} (hf : env w.clock .dat = some f) (h92 : 92 ≤ f.cur.length)
    (hm : whenSized env w .dat = some g) (hd : DataFile ks g.cur rs)
    (h : visitMean c env (fun _ => none) σ w = (res, w')) :
    (res = .ok () ∧ visited w'.out = visited w.out ++ values rs) ∨
      (Disturbed σ ∧ (∃ x, res = .error x) ∧ ∃ l, l <+: values rs ∧ visited w'.out = visited w.out ++ l) := by
  obtain ⟨h1, h2⟩ := C87_copy (c := c) hg (fun _ => none) (σ := σ) hf h92 hm
  rw [h] at h1 h2
  cases hv : visit c (fun _ => none) σ (withCopy g w) with
  | mk r v =>
    rw [hv] at h1 h2
    obtain ⟨_, h3⟩ := C27_visit (w := withCopy g w) (by simp [withCopy, Fs.set]) hd hv
    simp only at h1 h2
    rw [h1, h2]
    exact h3

/-- C87, as far as it holds: the data file grows towards a file `D` of complete records, and
at the moment of the size it is some initial part of `D`. Then the pairs of the records that
are complete at that moment, and no others, are given to the callback. Missing from the
claim: if the last record is incomplete at that moment, `visit` ends with an error or an
exception, although nothing is wrong (`C87_violated`). -/
theorem C87_partial {env : FilesAt} (hg : AppendsOnly env) {w : World} {f g : FileSt} {rs : List Record} {D : Bytes}
    {n : Nat} (hf : env w.clock .dat = some f) (h92 : 92 ≤ f.cur.length) (hm : whenSized env w .dat = some g)
    (hd : DataFile ks D rs) (hn : g.cur = D.take n) :
    ∃ res w' rs' tail, visitMean c env (fun _ => none) calm w = (res, w') ∧ rs' <+: rs ∧
      g.cur = D.take 92 ++ (layout rs' ++ tail) ∧ visited w'.out = visited w.out ++ values rs' ∧
      ((tail = [] ∧ res = .ok ()) ∨ ∃ x, CutOff ks tail x ∧ res = .error x) := by
  obtain ⟨h1, h2⟩ := C87_copy (c := c) hg (fun _ => none) (σ := calm) hf h92 hm
  obtain ⟨res, v, a1, _, a3⟩ := C28_truncated_partial (c := c) (w := withCopy g w) hd (by simp [withCopy, Fs.set]) hn
  have hl : 92 ≤ g.cur.length := by
    obtain ⟨g', e, hp⟩ := begins hg hf (w.clock + 2) (by omega)
    have : g' = g := Option.some.inj (e.symm.trans hm)
    subst this
    have := hp.length_le
    omega
  rcases a3 with ⟨h, _⟩ | ⟨rs', tail, b1, b2, b3, b4⟩
  · omega
  · rw [a1] at h1 h2
    cases hv : visitMean c env (fun _ => none) calm w with
    | mk r w' =>
      rw [hv] at h1 h2
      simp only at h1 h2
      refine ⟨r, w', rs', tail, rfl, b1, by rw [hn]; exact b2, ?_, ?_⟩
      · rw [h2]; exact b3
      · rw [h1]; exact b4

/-- A data file to which a record is being added: complete before the third operation and
after it, but not when the size is read. -/
private def growing (i : Nat) : Bytes :=
  if i < 2 then demoHeader ++ layout (demoRecords.take 2)
  else if i = 2 then demoHeader ++ layout (demoRecords.take 2) ++ (bigEndian 6 3 ++ [3, 4])
  else demoHeader ++ layout demoRecords

private def growingFs (i : Nat) : Fs := fun p => if p = .dat then some (.clean (growing i)) else none

private theorem growing_appends : AppendsOnly growingFs := by
  intro i
  refine ⟨.clean (growing i), .clean (growing (i + 1)), by simp [growingFs], by simp [growingFs], ?_⟩
  show growing i <+: growing (i + 1)
  rcases i with _ | _ | _ | i
  · decide
  · decide
  · decide
  · rw [show growing (i + 3) = growing 3 from rfl,
      show growing (i + 3 + 1) = growing 3 from rfl]
    exact List.prefix_refl _

private theorem demo_two : DataFile 2 (demoHeader ++ layout (demoRecords.take 2)) (demoRecords.take 2) := by
  obtain ⟨h, h1, h2, h3⟩ := demo_data_file
  refine ⟨demoHeader, ⟨by decide, by decide, by decide, by decide, by decide⟩, rfl, ?_⟩
  intro r hr
  exact h3 r (List.mem_of_mem_take hr)

/-- The claim fails: an iteration throws an exception although others only append, the file
consists of complete records when the iteration begins and at all operations but one, and no
operation fails. -/
theorem C87_violated : ∃ env : FilesAt, AppendsOnly env ∧ (∀ i, i ≠ 2 → ∃ f rs, env i .dat = some f ∧ DataFile 2 f.cur rs) ∧
    ∃ w', visitMean demoCfg env (fun _ => none) calm ⟨env 0, 0, []⟩ = (.error .throw, w') := by
  refine ⟨growingFs, growing_appends, ?_, ?_⟩
  · intro i hi
    refine ⟨.clean (growing i), if i < 2 then demoRecords.take 2 else demoRecords, by simp [growingFs], ?_⟩
    show DataFile 2 (growing i) _
    unfold growing
    by_cases h : i < 2
    · rw [if_pos h, if_pos h]; exact demo_two
    · rw [if_neg h, if_neg h, if_neg hi]; exact demo_data_file
  · obtain ⟨h1, h2⟩ := C87_copy (c := demoCfg) growing_appends (fun _ => none) (σ := calm) (w := ⟨growingFs 0, 0, []⟩)
      (f := .clean (growing 0)) (g := .clean (growing 2)) rfl (by decide) rfl
    obtain ⟨v, h3, _⟩ := C28_cut_value (c := demoCfg) (ks := 2) (w := withCopy (.clean (growing 2)) ⟨growingFs 0, 0, []⟩)
      (D := demoHeader ++ layout (demoRecords.take 2)) (k := [3, 4]) (v := [20, 21, 22]) (t := [3, 4]) demo_two
      ⟨rfl, by decide, by decide⟩ (by decide) (by decide) rfl rfl
    rw [h3] at h1
    cases hv : visitMean demoCfg growingFs (fun _ => none) calm ⟨growingFs 0, 0, []⟩ with
    | mk r w' =>
      rw [hv] at h1
      simp only at h1
      exact ⟨w', by rw [h1]⟩

section
variable {a : CreateArgs} {lf : Nat} {short : Prop}

private theorem serves_reachable {t : List Label} {x y : Store × Fs}
    (hr : Reachable c a short t (some x.1, x.2)) (he : x.1.ec = none) (h : StaysOpen c a.keySize a.blockSize short x y) :
    (∃ t', Reachable c a short t' (some y.1, y.2)) ∧ y.1.ec = none := by
  induction h with
  | rest => exact ⟨⟨t, hr⟩, he⟩
  | call h hl he' ih =>
    obtain ⟨⟨t', σ, as, w0, w1, h1, h2, h3⟩, _⟩ := ih
    exact ⟨⟨_, σ, as, w0, w1, h1, h2, .snoc h3 hl⟩, he'⟩

private theorem serves_prefix (hc : Creatable a lf) {t : List Label} {x y : Store × Fs}
    (hr : Reachable c a short t (some x.1, x.2)) (he : x.1.ec = none) (h : StaysOpen c a.keySize a.blockSize short x y) :
    ∃ f f', x.2 .dat = some f ∧ y.2 .dat = some f' ∧ f.cur <+: f'.cur := by
  induction h with
  | rest =>
    obtain ⟨st, _, hR⟩ := simulation hc hr
    cases hR with
    | @opened _ _ D K recs B view hS base hz hf =>
      obtain ⟨df, hd, sd⟩ := hS.idle.dat
      exact ⟨df, df, hd, hd, List.prefix_refl _⟩
    | failed h => rw [he] at h; cases h
  | @call s s' fs fs' l h hl he' ih =>
    obtain ⟨f, f', h1, h2, h3⟩ := ih
    obtain ⟨⟨t', hr'⟩, he1⟩ := serves_reachable hr he h
    generalize hs1 : (some s, fs) = z at hl
    generalize hs2 : (some s', fs') = z' at hl
    cases hl with
    | died => cases hs2
    | @call so so' gs w' op ret x w σ ha hm hw hp hx =>
      cases hs1; cases hs2
      obtain ⟨D, D', e1, e2, e3⟩ := C13_append_only hc hr' he1 ha hw hp (.inl rfl)
      cases hd' : w'.fs .dat with
      | none => simp [bytesOf, hd'] at e2
      | some g =>
        have h2' : fs .dat = some f' := h2
        simp only [bytesOf, h2', hd', Option.map_some, Option.some.injEq] at e1 e2
        subst e1 e2
        exact ⟨f, g, h1, hd', h3.trans e3⟩

/-- C87: a store is in use while `visit` runs on its data file; file operations of `visit` take
place between calls of the store (for those during a call see `C87_partial`). The iteration
succeeds. It reports every pair that is not waiting in the insert buffer when the size is read,
once, and no others: together with the insert buffer these are the pairs that `fetch` finds at
that moment. -/
theorem C87_in_use (hc : Creatable a lf) {t : List Label} {st : Nat → Store × Fs} {w : World} {m : Map}
    (hr : Reachable c a short t (some (st 0).1, (st 0).2)) (he : (st 0).1.ec = none)
    (hs : ∀ i, StaysOpen c a.keySize a.blockSize short (st i) (st (i + 1)))
    (hm : Lookups c a.keySize (st (w.clock + 2)).1 (st (w.clock + 2)).2 m) :
    ∃ w' ps, visitMean c (fun i => (st i).2) (fun _ => none) calm w = (.ok (), w') ∧
      visited w'.out = visited w.out ++ ps ∧
      ((ps ++ (st (w.clock + 2)).1.p1.map (fun it => (it.key, it.data))).map Prod.fst).Nodup ∧
      ∀ k v, (k, v) ∈ ps ++ (st (w.clock + 2)).1.p1.map (fun it => (it.key, it.data)) ↔
        k.length = a.keySize ∧ m k = some v := by
  have hall : ∀ i, (∃ t', Reachable c a short t' (some (st i).1, (st i).2)) ∧ (st i).1.ec = none := by
    intro i
    induction i with
    | zero => exact ⟨⟨t, hr⟩, he⟩
    | succ i ih => exact serves_reachable ih.1.choose_spec ih.2 (hs i)
  have hg : AppendsOnly (fun i => (st i).2) := by
    intro i
    obtain ⟨⟨t', h1⟩, h2⟩ := hall i
    exact serves_prefix hc h1 h2 (hs i)
  have hsess : ∀ i, ∃ D K recs B view, Sess c (a.conf lf) (st i).1 (st i).2 D K recs B view := by
    intro i
    obtain ⟨⟨t', h1⟩, h2⟩ := hall i
    obtain ⟨_, _, hR⟩ := simulation hc h1
    generalize hx : ((some (st i).1, (st i).2) : Option Store × Fs) = x at hR
    cases hR with
    | @opened s fs D K recs B view hS base hz hf =>
      cases hx
      exact ⟨D, K, recs, B, view, hS⟩
    | failed h => cases hx; rw [h2] at h; cases h
    | closed => cases hx
  obtain ⟨D0, K0, recs0, B0, view0, hS0⟩ := hsess w.clock
  obtain ⟨df0, hd0, sd0⟩ := hS0.idle.dat
  have h92 : 92 ≤ df0.cur.length := by
    have hx := dataFile_of hS0.db.conf hS0.db.dat
    obtain ⟨h, h1, h2, _⟩ := hx
    rw [sd0.cur, h2, List.length_append, h1.1]
    omega
  obtain ⟨D, K, recs, B, view, hS⟩ := hsess (w.clock + 2)
  obtain ⟨df, hd, sd⟩ := hS.idle.dat
  have hdat := dataFile_of hS.db.conf hS.db.dat
  rw [← sd.cur] at hdat
  have hpool := hS.pool
  have hn : ((pairsOf recs ++ poolPairs (st (w.clock + 2)).1.p1).map (·.1)).Nodup := hpool.nodup
  cases hv : visitMean c (fun i => (st i).2) (fun _ => none) calm w with
  | mk res w' =>
    rcases C87_complete (c := c) hg hd0 h92 hd hdat hv with ⟨rfl, h2⟩ | ⟨⟨i, hi⟩, _⟩
    · refine ⟨w', pairsOf recs, rfl, by rw [h2, values_toRecord], hn, ?_⟩
      intro k v
      have hlen : (k, v) ∈ pairsOf recs ++ poolPairs (st (w.clock + 2)).1.p1 → k.length = a.keySize := by
        intro h
        rcases List.mem_append.mp h with h | h
        · obtain ⟨r, hr, e⟩ := pairsOf_mem h
          exact ((hS.db.dat.ok r hr).data k v e).1
        · obtain ⟨it, hit, e⟩ := List.mem_map.mp h
          cases e
          exact (hpool.each it hit).2.1
      have hmk : k.length = a.keySize → m k = kvOf (pairsOf recs ++ poolPairs (st (w.clock + 2)).1.p1) k := by
        intro hk
        have e1 := hm ⟨(st (w.clock + 2)).2, 0, []⟩ rfl k hk
        have e2 := hS.lookups ⟨(st (w.clock + 2)).2, 0, []⟩ rfl k hk
        rw [e1] at e2
        generalize kvOf (pairsOf recs ++ poolPairs (st (w.clock + 2)).1.p1) k = o at e2
        cases hmk : m k <;> cases o <;> simp_all
      constructor
      · intro h
        refine ⟨hlen h, ?_⟩
        rw [hmk (hlen h)]
        exact (kvOf_some hn).mpr h
      · rintro ⟨hk, h⟩
        rw [hmk hk] at h
        exact (kvOf_some hn).mp h
    · exact absurd rfl hi

/-! ### During a flush -/

private theorem later_next {n k n' k' : Nat} (h : n < n' ∨ (n = n' ∧ k ≤ k')) : Later n (stopAt n k) (stopAt n' k') := by
  refine ⟨fun i hi => ?_, k, by simp [stopAt], ?_⟩
  · unfold stopAt
    rw [if_neg (by omega), if_neg (by omega)]
    exact ⟨rfl, rfl⟩
  · rcases h with h | ⟨rfl, h⟩
    · exact .inl (by unfold stopAt; rw [if_neg (by omega)])
    · exact .inr ⟨k', h, by simp [stopAt]⟩

private theorem later_calm {n k : Nat} : Later n (stopAt n k) calm :=
  ⟨fun i hi => ⟨by unfold stopAt; rw [if_neg (by omega)], rfl⟩, k, by simp [stopAt], .inl rfl⟩

private theorem toward_perform {s : Store} : Toward (perform c .flush (some s)) := by
  unfold perform
  apply Toward.bind Toward.flush
  intro s'
  split
  · exact Toward.ret _
  · exact Toward.ret _

/-- A complete record is not cut off. -/
private theorem complete_not_cut {r : Record} {z : Bytes} {x : Exc} (hr : r.Ok ks) (h : CutOff ks (r.bytes ++ z) x) : False := by
  have hl6 : 6 ≤ r.bytes.length := by
    cases r with
    | value k v => rw [value_record]; simp
    | overflow b => rw [overflow_record]; simp
  have hs : ∀ {o n}, o + n ≤ r.bytes.length → bytesAt (r.bytes ++ z) o n = slice r.bytes o n := by
    intro o n hn
    exact slice_append_left hn
  cases r with
  | value k v =>
    obtain ⟨a1, a2, a3⟩ := hr
    have e : value (bytesAt ((Record.value k v).bytes ++ z) 0 6) = v.length := by
      rw [hs (by omega), value_record, show slice (putU48 v.length ++ (k ++ v)) 0 6 = putU48 v.length from rfl, ← C18_u48.reads _ rfl,
        getU48_putU48 (by omega)]
    have hl : ((Record.value k v).bytes ++ z).length = 6 + k.length + v.length + z.length := by
      rw [value_record]; simp; omega
    cases h with
    | size h h' => omega
    | value h h1 h2 h' => rw [e] at h'; omega
    | bodySize h h0 h' => rw [e] at h0; omega
    | body h h0 h' => rw [e] at h0; omega
  | overflow b =>
    have a3 : b.length < 2 ^ 16 := hr
    have hl : ((Record.overflow b).bytes ++ z).length = 8 + b.length + z.length := by
      rw [overflow_record]; simp; omega
    have hl' : (Record.overflow b).bytes.length = 8 + b.length := by
      rw [overflow_record]; simp; omega
    have e : value (bytesAt ((Record.overflow b).bytes ++ z) 0 6) = 0 := by
      rw [hs (by omega), overflow_record, show slice (putU48 0 ++ (putU16 b.length ++ b)) 0 6 = putU48 0 from rfl, ← C18_u48.reads _ rfl,
        getU48_putU48 (by omega)]
    have e2 : value (bytesAt ((Record.overflow b).bytes ++ z) 6 2) = b.length := by
      rw [hs (by omega), overflow_record,
        show slice (putU48 0 ++ (putU16 b.length ++ b)) 6 2 = putU16 b.length from rfl, ← C18_u16.reads _ rfl,
        getU16_putU16 a3]
    cases h with
    | size h h' => omega
    | value h h1 h2 h' => rw [e] at h1; omega
    | bodySize h h0 h' => omega
    | body h h0 h' => rw [e2] at h'; omega

/-- Complete records at the beginning of a file are among those found there. -/
private theorem complete_found {H F tail : Bytes} {rs rs' all : List Record} (hok : ∀ r ∈ rs, r.Ok ks)
    (h1 : rs <+: all) (h2 : rs' <+: all) (hp : H ++ layout rs <+: F) (hF : F = H ++ (layout rs' ++ tail))
    (ht : tail = [] ∨ ∃ x, CutOff ks tail x) : rs <+: rs' := by
  rcases Nat.le_total rs.length rs'.length with h | h
  · exact List.prefix_of_prefix_length_le h1 h2 h
  · obtain ⟨q, rfl⟩ := List.prefix_of_prefix_length_le h2 h1 h
    cases q with
    | nil => simp
    | cons r q =>
      exfalso
      rw [hF, List.prefix_append_right_inj] at hp
      have : layout (rs' ++ r :: q) = layout rs' ++ (r.bytes ++ layout q) := by simp [layout]
      rw [this, List.prefix_append_right_inj] at hp
      obtain ⟨z, rfl⟩ := hp
      rcases ht with ht | ⟨x, ht⟩
      · have hr := hok r (by simp)
        have : r.bytes = [] := by
          simp only [List.append_eq_nil_iff] at ht
          exact ht.1.1
        cases r with
        | value k v => rw [value_record] at this; cases this
        | overflow b => rw [overflow_record] at this; cases this
      · rw [List.append_assoc] at ht
        exact complete_not_cut (hok r (by simp)) ht

/-- What a flush leaves in the files. -/
private theorem flushed {s s' : Store} {w w' : World} {cf : Conf} {D K : Bytes} {recs : List Rec} {B : Nat} {view : View}
    (hS : Sess c cf s w.fs D K recs B view) (hfl : perform c .flush (some s) calm w = (.ok (some s', .done), w')) :
    s'.ec = none ∧ ∃ s' D1 K1 rs B1 view1,
        Sess c cf s' w'.fs D1 K1 (recs ++ recsOf s.p1 ++ rs) B1 view1 ∧ Spills cf rs := by
  constructor
  · unfold perform at hfl
    change M.bind _ _ _ _ = _ at hfl
    unfold M.bind at hfl
    cases e : flush c s calm w with
    | mk r w1 =>
      rw [e] at hfl
      cases r with
      | error x => cases hfl
      | ok s1 =>
        cases h : s1.ec with
        | none => simp only [h] at hfl; cases hfl; exact h
        | some x => simp only [h] at hfl; cases hfl
  · have key : wp calm (perform c .flush (some s)) (fun r w' => r.2 = .done → ∃ s' D1 K1 rs B1 view1,
        Sess c cf s' w'.fs D1 K1 (recs ++ recsOf s.p1 ++ rs) B1 view1 ∧ Spills cf rs) (fun _ _ => True) w := by
      unfold perform
      apply wp_bind
      refine wp_conseq (wp_flush hS (G := fun _ _ => True) (fun _ => Nat.le_refl _) trivial
        (fun _ _ _ _ _ _ _ _ _ _ => trivial)
        (Q := fun s' w' => s'.ec = none → ∃ s' D1 K1 rs B1 view1,
          Sess c cf s' w'.fs D1 K1 (recs ++ recsOf s.p1 ++ rs) B1 view1 ∧ Spills cf rs) ?_ ?_) ?_ ?_
      · intro s' w' D1 K1 rs B1 view1 b1 b2 b3 b4 b5 b6 b7 b8 _
        exact ⟨s', D1, K1, rs, B1, view1, b1, b2⟩
      · intro s' w' _ _ h _ h'; rw [h] at h'; cases h'
      · intro s' w' h
        split
        · rename_i h'; exact wp_ret (fun _ => h h')
        · exact wp_ret (fun h => by cases h)
      · intros; trivial
    exact wp_elim key hfl rfl

/-- While a data file grows, `visit` finds it somewhere between its content before a flush
and that after the flush. -/
private theorem visit_between {env : FilesAt} (hg : AppendsOnly env) {s s' : Store} {fs fs' : Fs} {cf : Conf} {D K D1 K1 : Bytes}
    {recs rs : List Rec} {B B1 : Nat} {view view1 : View} {v : World} {f g : FileSt}
    (hS : Sess c cf s fs D K recs B view) (h1 : Sess c cf s' fs' D1 K1 (recs ++ recsOf s.p1 ++ rs) B1 view1) (h2 : Spills cf rs)
    (hfc : env v.clock .dat = some f) (h92 : 92 ≤ f.cur.length) (hgc : env (v.clock + 2) .dat = some g)
    (lower : D <+: g.cur) (upper : g.cur <+: D1) :
    ∃ res v' ps, visitMean c env (fun _ => none) calm v = (res, v') ∧
      visited v'.out = visited v.out ++ (pairsOf recs ++ ps) ∧ ps <+: poolPairs s.p1 ∧
      (res = .ok () ∨ res = .error .throw ∨ res = .error (.err .short_read)) := by
  have hdat := dataFile_of hS.db.conf hS.db.dat
  have hdat1 := dataFile_of h1.db.conf h1.db.dat
  obtain ⟨H, hH, hD, hok⟩ := hdat
  have hl0 : H.length = 92 := hH.length
  obtain ⟨res, v', rs', tail, p1, p2, p3, p4, p5⟩ := C87_partial (c := c) hg (w := v) hfc h92 hgc hdat1
    (n := g.cur.length) (List.prefix_iff_eq_take.mp upper)
  have hHD : D1.take 92 = H := by
    have := lower.trans upper
    rw [hD] at this
    obtain ⟨z, hz⟩ := this
    rw [← hz, List.append_assoc, ← hl0, List.take_left]
  rw [hHD] at p3
  have hall : recs.map Rec.toRecord <+: (recs ++ recsOf s.p1 ++ rs).map Rec.toRecord := by
    simp only [List.map_append, List.append_assoc]
    exact List.prefix_append _ _
  have hrec : recs.map Rec.toRecord <+: rs' := by
    refine complete_found (H := H) (F := g.cur) (tail := tail) hok hall p2 ?_ p3 ?_
    · rw [← hD]; exact lower
    · rcases p5 with ⟨h, _⟩ | ⟨x, h, _⟩
      · exact .inl h
      · exact .inr ⟨x, h⟩
  obtain ⟨rest, rfl⟩ := hrec
  have hval : ∀ a b : List Record, values (a ++ b) = values a ++ values b := by
    intro a b; simp [values, List.filterMap_append]
  refine ⟨res, v', values rest, p1, ?_, ?_, ?_⟩
  · rw [p4, hval, values_toRecord]
  · obtain ⟨more, hmore⟩ := p2
    have e := congrArg values hmore
    rw [hval, hval, values_toRecord, values_toRecord, pairsOf_commit h2, List.append_assoc, List.append_cancel_left_eq] at e
    exact ⟨values more, e⟩
  · rcases p5 with ⟨_, h⟩ | ⟨x, h, hx⟩
    · exact .inl h
    · rw [hx]
      cases h
      · exact .inr (.inr rfl)
      · exact .inr (.inl rfl)
      · exact .inr (.inr rfl)
      · exact .inr (.inr rfl)

private theorem sess_of (hc : Creatable a lf) {t : List Label} {s : Store} {fs : Fs} (hr : Reachable c a short t (some s, fs))
    (he : s.ec = none) : ∃ D K recs B view, Sess c (a.conf lf) s fs D K recs B view := by
  obtain ⟨_, _, hR⟩ := simulation hc hr
  generalize hx : ((some s, fs) : Option Store × Fs) = x at hR
  cases hR with
  | @opened s fs D K recs B view hS base hz hf =>
    cases hx
    exact ⟨D, K, recs, B, view, hS⟩
  | failed h => cases hx; rw [he] at h; cases h
  | closed => cases hx

private theorem sess_92 {s : Store} {fs : Fs} {cf : Conf} {D K : Bytes} {recs : List Rec} {B : Nat} {view : View}
    (hS : Sess c cf s fs D K recs B view) : 92 ≤ D.length := by
  obtain ⟨H, hH, hD, _⟩ := dataFile_of hS.db.conf hS.db.dat
  have hl0 : H.length = 92 := hH.length
  rw [hD, List.length_append]
  omega

private theorem during_lower {s : Store} {w : World} {cf : Conf} {D K : Bytes} {recs : List Rec} {B : Nat} {view : View}
    {n k : Nat} (hS : Sess c cf s w.fs D K recs B view) :
    ∃ f, duringFlush c s w n k .dat = some f ∧ D <+: f.cur := by
  obtain ⟨df, hd, sd⟩ := hS.idle.dat
  obtain ⟨f1, f, e1, e2, e3⟩ := (toward_perform (c := c) (s := s)).grow (stopAt n k) w df hd
  rw [hd] at e1; cases e1
  exact ⟨f, e2, by rw [← sd.cur]; exact e3⟩

private theorem during_upper {s s' s1 : Store} {w w' : World} {cf : Conf} {D K : Bytes} {recs : List Rec} {B : Nat} {view : View}
    {n k : Nat} {f df : FileSt} (h1 : Sess c cf s1 w'.fs D K recs B view) (hd : w.fs .dat = some df)
    (hfl : perform c .flush (some s) calm w = (.ok (some s', .done), w')) (hn : w.clock ≤ n)
    (hf : duringFlush c s w n k .dat = some f) : f.cur <+: D := by
  obtain ⟨df1, hd1, sd1⟩ := h1.idle.dat
  obtain ⟨f1, f2, e1, e2, e3⟩ := ((toward_perform (c := c) (s := s)).go n (stopAt n k) calm w df later_calm hn hd).1
  rw [hfl] at e2
  rw [hd1] at e2; cases e2
  change duringFlush c s w n k .dat = _ at e1
  rw [hf] at e1; cases e1
  rw [← sd1.cur]; exact e3

/-- C87 during a flush, as far as it holds. While `flush` is being carried out, its file
operations and those of `visit` alternate in any way: `visit` finds some of them done, and
perhaps one half done, at each of its own operations. It gives every pair that was in the data
file before the flush to the callback, in the same order, and then an initial part of those
in the insert buffer. Missing from the claim: it may end with an error or an exception
(`C87_violated`). -/
theorem C87_flush_partial (hc : Creatable a lf) {t : List Label} {s s' : Store} {w w' v v0 : World} {n k : Nat → Nat}
    (hr : Reachable c a short t (some s, w.fs)) (he : s.ec = none)
    (hfl : perform c .flush (some s) calm w = (.ok (some s', .done), w'))
    (hv : visit c (fun _ => none) calm ⟨w.fs, 0, []⟩ = (.ok (), v0)) (hm : Moments w n k) :
    ∃ res v' ps, visitMean c (fun i => duringFlush c s w (n i) (k i)) (fun _ => none) calm v = (res, v') ∧
      visited v'.out = visited v.out ++ (visited v0.out ++ ps) ∧
      ps <+: s.p1.map (fun it => (it.key, it.data)) ∧
      (res = .ok () ∨ res = .error .throw ∨ res = .error (.err .short_read)) := by
  obtain ⟨D, K, recs, B, view, hS⟩ := sess_of hc hr he
  obtain ⟨_, s1, D1, K1, rs, B1, view1, h1, h2⟩ := flushed hS hfl
  obtain ⟨df, hd, sd⟩ := hS.idle.dat
  obtain ⟨df1, hd1, sd1⟩ := h1.idle.dat
  have hv0 : visited v0.out = pairsOf recs := by
    have hdat := dataFile_of hS.db.conf hS.db.dat
    rw [← sd.cur] at hdat
    obtain ⟨_, h2⟩ := C27_visit (w := ⟨w.fs, 0, []⟩) hd hdat hv
    rcases h2 with ⟨_, h2⟩ | ⟨h, _⟩
    · rw [h2, values_toRecord]; rfl
    · exact absurd h not_faulty_calm
  have hclock : ∀ i, w.clock ≤ n i := by
    intro i
    induction i with
    | zero => exact hm.1
    | succ i ih => have := hm.2 i; omega
  have hg : AppendsOnly (fun i => duringFlush c s w (n i) (k i)) := fun i =>
    (toward_perform.go (n i) _ _ w df (later_next (hm.2 i)) (hclock i) hd).1
  obtain ⟨f, hfc, lf⟩ := during_lower (c := c) (n := n v.clock) (k := k v.clock) hS
  obtain ⟨g, hgc, lg⟩ := during_lower (c := c) (n := n (v.clock + 2)) (k := k (v.clock + 2)) hS
  have ug := during_upper h1 hd hfl (hclock (v.clock + 2)) hgc
  rw [hv0]
  exact visit_between hg hS h1 h2 hfc (Nat.le_trans (sess_92 hS) lf.length_le) hgc lg ug

/-- What is known of each moment. -/
private def Good (c : Cfg) (a : CreateArgs) (short : Prop) : Moment → Prop
  | .between s fs => (∃ t, Reachable c a short t (some s, fs)) ∧ s.ec = none
  | .flushing s w n _ => (∃ t, Reachable c a short t (some s, w.fs)) ∧ s.ec = none ∧ w.clock ≤ n ∧
      Mild a.blockSize short calm .flush (some s) ∧ ∃ s' w', perform c .flush (some s) calm w = (.ok (some s', .done), w')

private theorem good_has (hc : Creatable a lf) {x : Moment} (h : Good c a short x) : ∃ f, x.files c .dat = some f := by
  cases x with
  | between s fs =>
    obtain ⟨⟨t, hr⟩, he⟩ := h
    obtain ⟨D, K, recs, B, view, hS⟩ := sess_of hc hr he
    obtain ⟨df, hd, sd⟩ := hS.idle.dat
    exact ⟨df, hd⟩
  | flushing s w n k =>
    obtain ⟨⟨t, hr⟩, he, _⟩ := h
    obtain ⟨D, K, recs, B, view, hS⟩ := sess_of hc hr he
    obtain ⟨f, hf, _⟩ := during_lower (c := c) (n := n) (k := k) hS
    exact ⟨f, hf⟩

private theorem good_then (hc : Creatable a lf) {x y : Moment} (hx : Good c a short x)
    (h : Moment.Then c a.keySize a.blockSize short x y) : Good c a short y ∧ DatLe (x.files c) (y.files c) := by
  induction h with
  | rest =>
    obtain ⟨f, hf⟩ := good_has hc hx
    exact ⟨hx, .refl hf⟩
  | @call s s' fs fs' l h hl he ih =>
    obtain ⟨⟨⟨t, hr⟩, he0⟩, hle⟩ := ih
    have hs : StaysOpen c a.keySize a.blockSize short (s, fs) (s', fs') := .call (.rest _) hl he
    exact ⟨serves_reachable (x := (s, fs)) hr he0 hs, hle.trans (serves_prefix hc (x := (s, fs)) hr he0 hs)⟩
  | @begins s s' w w' n k h hn hm hf ih =>
    obtain ⟨⟨⟨t, hr⟩, he0⟩, hle⟩ := ih
    refine ⟨⟨⟨t, hr⟩, he0, hn, hm, s', w', hf⟩, hle.trans ?_⟩
    obtain ⟨f, hfd⟩ := hle.has
    exact toward_perform.grow _ w f hfd
  | @goes s w n k n' k' h hn ih =>
    obtain ⟨⟨⟨t, hr⟩, he0, hn0, hm, s', w', hf⟩, hle⟩ := ih
    refine ⟨⟨⟨t, hr⟩, he0, by omega, hm, s', w', hf⟩, hle.trans ?_⟩
    obtain ⟨D, K, recs, B, view, hS⟩ := sess_of hc hr he0
    obtain ⟨df, hd, sd⟩ := hS.idle.dat
    exact (toward_perform.go n _ _ w df (later_next hn) hn0 hd).1
  | @ends s s' w w' n k h hf ih =>
    obtain ⟨⟨⟨t, hr⟩, he0, hn0, hm, _⟩, hle⟩ := ih
    obtain ⟨D, K, recs, B, view, hS⟩ := sess_of hc hr he0
    obtain ⟨df, hd, sd⟩ := hS.idle.dat
    have he1 := (flushed hS hf).1
    have hl : Exec c a.keySize a.blockSize short (some s, w.fs) (.call .flush .done false) (some s', w'.fs) :=
      .call calm trivial hm rfl hf (fun _ _ => rfl)
    refine ⟨serves_reachable (x := (s, w.fs)) hr he0 (.call (.rest _) hl he1), hle.trans ?_⟩
    have := ((toward_perform (c := c) (s := s)).go n (stopAt n k) calm w df later_calm hn0 hd).1
    rw [hf] at this
    exact this

/-- C87 for a store in use, as far as it holds. While `visit` runs, the store serves any calls,
and flushes its insert buffer any number of times; operations of `visit` take place between
calls and at any points of these flushes. Let `m` be what `fetch` found before the moment when
the size is read. `visit` gives no pair but those of `m` to the callback, none of them twice,
and all of those that did not wait in the insert buffer at that moment. It fails only if
that moment lies within a flush. Missing from the claim: that it succeeds even then
(`C87_flush_violated`). -/
theorem C87_use_partial (hc : Creatable a lf) {t : List Label} {s : Store} {fs : Fs} {st : Nat → Moment} {v : World} {m : Map}
    (hr : Reachable c a short t (some s, fs)) (he : s.ec = none) (h0 : st 0 = .between s fs)
    (hs : ∀ i, Moment.Then c a.keySize a.blockSize short (st i) (st (i + 1)))
    (hm : Lookups c a.keySize (st (v.clock + 2)).store (st (v.clock + 2)).since m) :
    ∃ res v' ps, visitMean c (fun i => (st i).files c) (fun _ => none) calm v = (res, v') ∧
      visited v'.out = visited v.out ++ ps ∧ (ps.map Prod.fst).Nodup ∧
      (∀ p ∈ ps, p.1.length = a.keySize ∧ m p.1 = some p.2) ∧
      (∀ k u, k.length = a.keySize → m k = some u →
        (k, u) ∈ ps ∨ (k, u) ∈ (st (v.clock + 2)).store.p1.map (fun it => (it.key, it.data))) ∧
      (res = .ok () ∨ ((∃ s w n k, st (v.clock + 2) = .flushing s w n k) ∧
        (res = .error .throw ∨ res = .error (.err .short_read)))) := by
  have hall : ∀ i, Good c a short (st i) := by
    intro i
    induction i with
    | zero => rw [h0]; exact ⟨⟨t, hr⟩, he⟩
    | succ i ih => exact (good_then hc ih (hs i)).1
  have hg : AppendsOnly (fun i => (st i).files c) := fun i => (good_then hc (hall i) (hs i)).2
  obtain ⟨f, hfc, h92⟩ : ∃ f, (st v.clock).files c .dat = some f ∧ 92 ≤ f.cur.length := by
    have := hall v.clock
    cases hx : st v.clock with
    | between s fs =>
      rw [hx] at this
      obtain ⟨⟨t, hr⟩, he⟩ := this
      obtain ⟨D, K, recs, B, view, hS⟩ := sess_of hc hr he
      obtain ⟨df, hd, sd⟩ := hS.idle.dat
      exact ⟨df, hd, by rw [sd.cur]; exact sess_92 hS⟩
    | flushing s w n k =>
      rw [hx] at this
      obtain ⟨⟨t, hr⟩, he, _⟩ := this
      obtain ⟨D, K, recs, B, view, hS⟩ := sess_of hc hr he
      obtain ⟨f, hf, hl⟩ := during_lower (c := c) (n := n) (k := k) hS
      exact ⟨f, hf, Nat.le_trans (sess_92 hS) hl.length_le⟩
  obtain ⟨D, K, recs, B, view, hS, hvis⟩ : ∃ D K recs B view,
      Sess c (a.conf lf) (st (v.clock + 2)).store (st (v.clock + 2)).since D K recs B view ∧
      ∃ res v' ps, visitMean c (fun i => (st i).files c) (fun _ => none) calm v = (res, v') ∧
        visited v'.out = visited v.out ++ (pairsOf recs ++ ps) ∧ ps <+: poolPairs (st (v.clock + 2)).store.p1 ∧
        (res = .ok () ∨ ((∃ s w n k, st (v.clock + 2) = .flushing s w n k) ∧
          (res = .error .throw ∨ res = .error (.err .short_read)))) := by
    have := hall (v.clock + 2)
    cases hx : st (v.clock + 2) with
    | between s fs =>
      rw [hx] at this
      obtain ⟨⟨t, hr⟩, he⟩ := this
      obtain ⟨D, K, recs, B, view, hS⟩ := sess_of hc hr he
      obtain ⟨df, hd, sd⟩ := hS.idle.dat
      have hdat := dataFile_of hS.db.conf hS.db.dat
      rw [← sd.cur] at hdat
      refine ⟨D, K, recs, B, view, hS, ?_⟩
      cases hv : visitMean c (fun i => (st i).files c) (fun _ => none) calm v with
      | mk res v' =>
        rcases C87_complete (c := c) hg hfc h92 (show whenSized (fun i => (st i).files c) v .dat = some df by
          show (st (v.clock + 2)).files c .dat = _; rw [hx]; exact hd) hdat hv with ⟨rfl, h2⟩ | ⟨⟨i, hi⟩, _⟩
        · exact ⟨_, v', [], rfl, by rw [h2, values_toRecord, List.append_nil], List.nil_prefix, .inl rfl⟩
        · exact absurd rfl hi
    | flushing s w n k =>
      rw [hx] at this
      obtain ⟨⟨t, hr⟩, he, hn, _, s', w', hf⟩ := this
      obtain ⟨D, K, recs, B, view, hS⟩ := sess_of hc hr he
      obtain ⟨_, s1, D1, K1, rs, B1, view1, h1, h2⟩ := flushed hS hf
      obtain ⟨df, hd, sd⟩ := hS.idle.dat
      obtain ⟨g, hgc, lg⟩ := during_lower (c := c) (n := n) (k := k) hS
      have ug := during_upper h1 hd hf hn hgc
      refine ⟨D, K, recs, B, view, hS, ?_⟩
      obtain ⟨res, v', ps, p1, p2, p3, p4⟩ := visit_between hg hS h1 h2 hfc h92
        (show (st (v.clock + 2)).files c .dat = some g by rw [hx]; exact hgc) lg ug
      refine ⟨res, v', ps, p1, p2, p3, ?_⟩
      rcases p4 with p4 | p4
      · exact .inl p4
      · exact .inr ⟨⟨s, w, n, k, rfl⟩, p4⟩
  obtain ⟨res, v', ps, p1, p2, ⟨more, p3⟩, p4⟩ := hvis
  have hpool := hS.pool
  have hn : ((pairsOf recs ++ poolPairs (st (v.clock + 2)).store.p1).map (·.1)).Nodup := hpool.nodup
  have hsub : ∀ p, p ∈ pairsOf recs ++ ps → p ∈ pairsOf recs ++ poolPairs (st (v.clock + 2)).store.p1 := by
    intro p hp
    rw [← p3]
    simp only [List.mem_append] at hp ⊢
    rcases hp with hp | hp
    · exact .inl hp
    · exact .inr (.inl hp)
  have hlen : ∀ k u, (k, u) ∈ pairsOf recs ++ poolPairs (st (v.clock + 2)).store.p1 → k.length = a.keySize := by
    intro k u h
    rcases List.mem_append.mp h with h | h
    · obtain ⟨r, hr, e⟩ := pairsOf_mem h
      exact ((hS.db.dat.ok r hr).data k u e).1
    · obtain ⟨it, hit, e⟩ := List.mem_map.mp h
      cases e
      exact (hpool.each it hit).2.1
  have hmk : ∀ k, k.length = a.keySize → m k = kvOf (pairsOf recs ++ poolPairs (st (v.clock + 2)).store.p1) k := by
    intro k hk
    have e1 := hm ⟨(st (v.clock + 2)).since, 0, []⟩ rfl k hk
    have e2 := hS.lookups ⟨(st (v.clock + 2)).since, 0, []⟩ rfl k hk
    rw [e1] at e2
    generalize kvOf (pairsOf recs ++ poolPairs (st (v.clock + 2)).store.p1) k = o at e2
    cases hmk : m k <;> cases o <;> simp_all
  refine ⟨res, v', pairsOf recs ++ ps, p1, p2, ?_, ?_, ?_, p4⟩
  · rw [← p3, ← List.append_assoc, List.map_append] at hn
    exact (List.nodup_append.mp hn).1
  · rintro ⟨k, u⟩ hp
    have hk := hlen k u (hsub _ hp)
    exact ⟨hk, by rw [hmk k hk]; exact (kvOf_some hn).mpr (hsub _ hp)⟩
  · intro k u hk h
    rw [hmk k hk] at h
    rcases List.mem_append.mp ((kvOf_some hn).mp h) with h | h
    · exact .inl (List.mem_append_left _ h)
    · exact .inr h

end

/- `C87_copy`, `C87_partial`: the file that grows above; `n` is the size read. -/
example : ∃ g, whenSized growingFs ⟨growingFs 0, 0, []⟩ .dat = some g ∧ DataFile 2 (demoHeader ++ layout demoRecords) demoRecords ∧
    g.cur = (demoHeader ++ layout demoRecords).take 125 ∧ g.cur.length = 125 :=
  ⟨.clean (growing 2), rfl, demo_data_file, by decide, by decide⟩

/- `C87_complete`: started one operation later, the same file is complete when the size is read. -/
example : ∃ f g, growingFs 1 .dat = some f ∧ 92 ≤ f.cur.length ∧ whenSized growingFs ⟨growingFs 1, 1, []⟩ .dat = some g ∧
    DataFile 2 g.cur demoRecords :=
  ⟨.clean (growing 1), .clean (growing 3), rfl, by decide, rfl, demo_data_file⟩

/- `C87_alone`. -/
example : ∃ f, growingFs 0 .dat = some f ∧ 92 ≤ f.cur.length := ⟨.clean (growing 0), rfl, by decide⟩

/- `C87_in_use`: eight pairs are flushed before the size is read. -/
example : ∃ t, ∃ st : Nat → Store × Fs, ∃ m, Reachable demoCfg demoArgs False t (some (st 0).1, (st 0).2) ∧ (st 0).1.ec = none ∧
    (st 0).1.p1.length = 8 ∧ (∀ i, StaysOpen demoCfg demoArgs.keySize demoArgs.blockSize False (st i) (st (i + 1))) ∧
    Lookups demoCfg demoArgs.keySize (st 2).1 (st 2).2 m ∧ (st 2).1.p1 = [] := by
  have h : demoTest demoCfg demoArgs (demoOps.take 9) (fun s w => s.ec == none && s.p1.length == 8 &&
      match perform demoCfg .flush (some s) calm w with
      | (.ok (some s', .done), _) => s'.ec == none && s'.p1.isEmpty
      | _ => false) = true := by decide +kernel
  obtain ⟨rets, s, w, h1, h2⟩ := demo_test (demoOps_sound 9) h
  simp only [Bool.and_eq_true, beq_iff_eq] at h2
  have h3 := h2.2
  split at h3
  · rename_i s' w' e
    simp only [Bool.and_eq_true, beq_iff_eq, List.isEmpty_iff] at h3
    have hx : Exec demoCfg demoArgs.keySize demoArgs.blockSize False (some s, w.fs) (.call .flush .done false) (some s', w'.fs) :=
      .call calm trivial ⟨(fun h => nomatch h), fun h => h.elim⟩ rfl e (fun _ _ => rfl)
    have hsv : StaysOpen demoCfg demoArgs.keySize demoArgs.blockSize False (s, w.fs) (s', w'.fs) :=
      .call (.rest _) hx h3.1
    obtain ⟨⟨t', hr'⟩, _⟩ := serves_reachable (x := (s, w.fs)) h1 h2.1.1 hsv
    have hl : ∃ m, Lookups demoCfg demoArgs.keySize s' w'.fs m := by
      obtain ⟨_, _, hR⟩ := simulation demo_creatable hr'
      generalize hx : ((some s', w'.fs) : Option Store × Fs) = x at hR
      cases hR with
      | opened hS => cases hx; exact ⟨_, hS.lookups⟩
      | failed h => cases hx; rw [h3.1] at h; cases h
      | closed => cases hx
    obtain ⟨m, hm⟩ := hl
    refine ⟨_, fun i => if i ≤ 1 then (s, w.fs) else (s', w'.fs), m, h1, h2.1.1, h2.1.2, ?_, hm, h3.2⟩
    intro i
    rcases i with _ | _ | i
    · exact .rest _
    · exact hsv
    · simp only [show ¬ i + 1 + 1 ≤ 1 by omega, show ¬ i + 1 + 1 + 1 ≤ 1 by omega, if_false]
      exact .rest _
  · cases h3

/- `C87_flush_partial`: a store with eight pairs in the insert buffer; `visit` finds the flush one
operation further each time, with one byte of the next. -/
example : ∃ t s s' w w' v0, Reachable demoCfg demoArgs False t (some s, w.fs) ∧ s.ec = none ∧ s.p1.length = 8 ∧
    perform demoCfg .flush (some s) calm w = (.ok (some s', .done), w') ∧
    visit demoCfg (fun _ => none) calm ⟨w.fs, 0, []⟩ = (.ok (), v0) ∧
    Moments w (fun i => w.clock + i) (fun _ => 1) := by
  have h : demoTest demoCfg demoArgs (demoOps.take 9) (fun s w => s.ec == none && s.p1.length == 8 &&
      match perform demoCfg .flush (some s) calm w with
      | (.ok (some s', .done), _) => s'.ec == none && s'.p1.isEmpty
      | _ => false) = true := by decide +kernel
  obtain ⟨rets, s, w, h1, h2⟩ := demo_test (demoOps_sound 9) h
  simp only [Bool.and_eq_true, beq_iff_eq] at h2
  have h3 := h2.2
  split at h3
  · rename_i s' w' e
    obtain ⟨_, _, hR⟩ := simulation demo_creatable h1
    generalize hx : ((some s, w.fs) : Option Store × Fs) = x at hR
    cases hR with
    | closed => cases hx
    | failed h => cases hx; rw [h2.1.1] at h; cases h
    | opened hS =>
      cases hx
      obtain ⟨df, hd, sd⟩ := hS.idle.dat
      have hdat := dataFile_of hS.db.conf hS.db.dat
      rw [← sd.cur] at hdat
      cases hv : visit demoCfg (fun _ => none) calm ⟨w.fs, 0, []⟩ with
      | mk res v0 =>
        obtain ⟨_, hr⟩ := C27_visit (w := ⟨w.fs, 0, []⟩) hd hdat hv
        rcases hr with ⟨rfl, _⟩ | ⟨hh, _⟩
        · exact ⟨_, s, s', w, w', v0, h1, h2.1.1, h2.1.2, e, hv, Nat.le_refl _, fun i => .inl (Nat.lt_succ_self _)⟩
        · exact absurd hh not_faulty_calm
  · cases h3

/- `C87_use_partial`: a store with eight pairs in the insert buffer; at the first operation of
`visit` no call is being made, at the next four a flush has come one operation further each
time, and afterwards it has ended. -/
example : ∃ t s fs m, ∃ st : Nat → Moment, Reachable demoCfg demoArgs False t (some s, fs) ∧ s.ec = none ∧ s.p1.length = 8 ∧
    st 0 = .between s fs ∧ (∀ i, Moment.Then demoCfg demoArgs.keySize demoArgs.blockSize False (st i) (st (i + 1))) ∧
    Lookups demoCfg demoArgs.keySize (st 2).store (st 2).since m ∧ (∃ w, st 2 = .flushing s w (w.clock + 2) 1) ∧
    ∃ s' fs', st 5 = .between s' fs' ∧ s'.p1 = [] := by
  have h : demoTest demoCfg demoArgs (demoOps.take 9) (fun s w => s.ec == none && s.p1.length == 8 &&
      match perform demoCfg .flush (some s) calm w with
      | (.ok (some s', .done), _) => s'.ec == none && s'.p1.isEmpty
      | _ => false) = true := by decide +kernel
  obtain ⟨rets, s, w, h1, h2⟩ := demo_test (demoOps_sound 9) h
  simp only [Bool.and_eq_true, beq_iff_eq] at h2
  have h3 := h2.2
  split at h3
  · rename_i s' w' e
    simp only [Bool.and_eq_true, beq_iff_eq, List.isEmpty_iff] at h3
    obtain ⟨_, _, _, _, _, hS⟩ := sess_of demo_creatable h1 h2.1.1
    refine ⟨_, s, w.fs, _, fun i => if i = 0 then .between s w.fs else if i ≤ 4 then .flushing s w (w.clock + i) 1 else .between s' w'.fs,
      h1, h2.1.1, h2.1.2, rfl, ?_, hS.lookups, ⟨w, rfl⟩, s', w'.fs, rfl, h3.2⟩
    intro i
    rcases i with _ | i
    · exact .begins (.rest _) (Nat.le_succ _) ⟨(fun h => nomatch h), fun h => h.elim⟩ e
    · show Moment.Then _ _ _ _ (if i + 1 = 0 then _ else _) (if i + 1 + 1 = 0 then _ else _)
      rw [if_neg (Nat.succ_ne_zero i), if_neg (Nat.succ_ne_zero (i + 1))]
      by_cases h5 : i + 1 ≤ 4
      · rw [if_pos h5]
        by_cases h6 : i + 1 + 1 ≤ 4
        · rw [if_pos h6]
          exact .goes (.rest _) (.inl (by omega))
        · rw [if_neg h6]
          exact .ends (.rest _) e
      · rw [if_neg h5, if_neg (by omega)]
        exact .rest _
  · cases h3

/-- The claim fails during a flush of the model itself: at a moment when a part of a record is
written, the iteration throws an exception, although both the flush and the file operations of
the iteration succeed. -/
theorem C87_flush_violated : ∃ t s s' w w' n k, Reachable demoCfg demoArgs False t (some s, w.fs) ∧ s.ec = none ∧
    perform demoCfg .flush (some s) calm w = (.ok (some s', .done), w') ∧
    ∃ v', visitMean demoCfg (fun _ => duringFlush demoCfg s w n k) (fun _ => none) calm ⟨w.fs, 0, []⟩ = (.error .throw, v') := by
  have h : demoTest demoCfg demoArgs (demoOps.take 9) (fun s w => s.ec == none &&
      (match perform demoCfg .flush (some s) calm w with
      | (.ok (some _, .done), _) => true
      | _ => false) &&
      match w.fs .dat, duringFlush demoCfg s w (w.clock + 6) 8 .dat with
      | some f, some g => g.cur == f.cur ++ (bigEndian 6 1 ++ [1, 1])
      | _, _ => false) = true := by decide +kernel
  obtain ⟨rets, s, w, h1, h2⟩ := demo_test (demoOps_sound 9) h
  simp only [Bool.and_eq_true, beq_iff_eq] at h2
  obtain ⟨⟨h2, h3⟩, h4⟩ := h2
  split at h3
  · rename_i s' w' e
    split at h4
    · rename_i f g ef eg
      simp only [beq_iff_eq] at h4
      obtain ⟨_, _, hR⟩ := simulation demo_creatable h1
      generalize hx : ((some s, w.fs) : Option Store × Fs) = x at hR
      cases hR with
      | closed => cases hx
      | failed h => cases hx; rw [h2] at h; cases h
      | opened hS =>
        cases hx
        obtain ⟨df, hd, sd⟩ := hS.idle.dat
        have hdat := dataFile_of hS.db.conf hS.db.dat
        rw [← sd.cur] at hdat
        rw [hd] at ef
        cases ef
        refine ⟨_, s, s', w, w', w.clock + 6, 8, h1, h2, e, ?_⟩
        have h92 : 92 ≤ g.cur.length := by
          obtain ⟨H, hH, hD, _⟩ := hdat
          rw [h4, hD, List.length_append, List.length_append, hH.length]
          omega
        have hkey : (demoArgs.conf 2).keySize = 2 := rfl
        obtain ⟨k1, k2⟩ := C87_copy (c := demoCfg) (env := fun _ => duringFlush demoCfg s w (w.clock + 6) 8)
          (fun i => ⟨g, g, eg, eg, List.prefix_refl _⟩) (fun _ => none) (σ := calm) (w := ⟨w.fs, 0, []⟩) eg h92 eg
        obtain ⟨v, h5, _⟩ := C28_cut_value (c := demoCfg) (w := withCopy g ⟨w.fs, 0, []⟩) (k := [1, 1]) (v := [10]) (t := [1, 1]) hdat
          ⟨rfl, by decide, by decide⟩ (by decide) (by decide) rfl h4
        rw [h5] at k1
        cases hv : visitMean demoCfg (fun _ => duringFlush demoCfg s w (w.clock + 6) 8) (fun _ => none) calm ⟨w.fs, 0, []⟩ with
        | mk r w' =>
          rw [hv] at k1
          simp only at k1
          exact ⟨w', by rw [k1]⟩
    · cases h4
  · cases h3

end NuDB
