import Verif.Proof.BulkIO
import Verif.Props.Codec
import Verif.Model.Rekey
import Verif.Proof.Db
import Verif.Spec.Layout
/- `visit` reports the records of the data file. -/
namespace NuDB

open Spec

theorem bytesAt_eq (f : Bytes) (o n : Nat) : bytesAt f o n = slice f o n := rfl

theorem getSize48_ok {n : Nat} (h : n < 2 ^ 32) : getSize48 (putU48 n) = .ok n := by
  unfold getSize48
  rw [getU48_putU48 (by omega)]
  simp only [bind, Except.bind]
  rw [assert_ok (by simp; omega)]
  rfl

theorem value_record {k v : Bytes} : (Record.value k v).bytes = putU48 v.length ++ (k ++ v) := by
  simp [Record.bytes, C18_u48.layout]

theorem overflow_record {b : Bytes} : (Record.overflow b).bytes = putU48 0 ++ (putU16 b.length ++ b) := by
  simp [Record.bytes, C18_u48.layout, C18_u16.layout]

theorem layout_cons (r : Record) (rs : List Record) : layout (r :: rs) = r.bytes ++ layout rs := rfl

/-- What `visit` does with these records: the error of the callback that ended it, and all calls. -/
def tour (total : Nat) (cb : List Event → Option Err) : List Event → Nat → List Record → Option Err × List Event
  | out, _, [] => (none, out)
  | out, pos, .value k v :: rs =>
    match cb (out ++ [.item k v]) with
    | some e => (some e, out ++ [.item k v])
    | none => tour total cb (out ++ [.item k v] ++ [.progress (pos + (6 + k.length + v.length)) total])
        (pos + (6 + k.length + v.length)) rs
  | out, pos, .overflow b :: rs =>
    tour total cb (out ++ [.progress (pos + (8 + b.length)) total]) (pos + (8 + b.length)) rs

theorem tour_prefix (total : Nat) (cb : List Event → Option Err) (rs : List Record) :
    ∀ out pos, out <+: (tour total cb out pos rs).2 := by
  induction rs with
  | nil => intro out pos; exact List.prefix_refl _
  | cons r rs ih =>
    intro out pos
    cases r with
    | value k v =>
      simp only [tour]
      split
      · exact List.prefix_append _ _
      · refine List.IsPrefix.trans ?_ (ih _ _)
        rw [List.append_assoc]; exact List.prefix_append _ _
    | overflow b =>
      simp only [tour]
      exact (List.prefix_append _ _).trans (ih _ _)

/-- Exceptional ends of `visit`. -/
inductive VisitEnd (σ : Schedule) (ks : Nat) (tail : Bytes) (t : Option Err × List Event) (base : List Event) :
    Exc → List Event → Prop
  | callback {e : Err} (h : t.1 = some e) : VisitEnd σ ks tail t base (.err e) t.2
  | fault {x : Exc} {out : List Event} (h : IsFault x ∨ x = .throw) (hf : Faulty σ) (hb : base <+: out)
      (hp : out <+: t.2) : VisitEnd σ ks tail t base x out
  | torn {x : Exc} (h : t.1 = none) (hc : CutOff ks tail x) : VisitEnd σ ks tail t base x t.2

theorem VisitEnd.base {σ : Schedule} {ks : Nat} {tail : Bytes} {t : Option Err × List Event} {b b' : List Event} {x : Exc}
    {out : List Event} (h : VisitEnd σ ks tail t b' x out) (hb : b <+: b') : VisitEnd σ ks tail t b x out := by
  cases h with
  | callback h => exact .callback h
  | fault h hf h1 hp => exact .fault h hf (hb.trans h1) hp
  | torn h hc => exact .torn h hc

section
variable {σ : Schedule} {c : Cfg} {ks total : Nat} {cb : List Event → Option Err} {f : FileSt}

theorem slice_at_mid {F pre y post : Bytes} (h : F = pre ++ (y ++ post)) {o n : Nat} (ho : o = pre.length)
    (hn : n = y.length) : slice F o n = y := by
  rw [h]; exact slice_mid' ho hn

theorem getSize48_val {p : Bytes} (hp : p.length = 6) (h : value p < 2 ^ 32) : getSize48 p = .ok (value p) := by
  unfold getSize48
  rw [C18_u48.reads p hp]
  simp only [bind, Except.bind]
  rw [assert_ok (by simp; omega)]
  rfl

theorem wp_emit {e : Event} {Q : Unit → World → Prop} {X : Exc → World → Prop} {w : World}
    (h : Q () { w with out := w.out ++ [e] }) : wp σ (emit e) Q X w := h

theorem wp_history {Q : List Event → World → Prop} {X : Exc → World → Prop} {w : World}
    (h : Q w.out w) : wp σ history Q X w := h

/-- A complete value record. -/
theorem wp_visit_value {pre post k v : Bytes} {r : Reader} {w : World} {Q : Reader → World → Prop} {X : Exc → World → Prop}
    (hf : w.fs .dat = some f) (hF : f.cur = pre ++ ((Record.value k v).bytes ++ post)) (hok : (Record.value k v).Ok ks)
    (hr : RInv r f.cur) (hp : r.path = .dat) (hl : r.last = f.cur.length) (hpos : r.pos = pre.length)
    (hQ : cb (w.out ++ [.item k v]) = none → ∀ r' w', RInv r' f.cur → r'.path = .dat → r'.last = f.cur.length →
      r'.pos = pre.length + (6 + k.length + v.length) → w'.fs = w.fs →
      w'.out = w.out ++ [.item k v] ++ [.progress (pre.length + (6 + k.length + v.length)) total] → Q r' w')
    (hE : ∀ e, cb (w.out ++ [.item k v]) = some e → ∀ w', w'.fs = w.fs → w'.out = w.out ++ [.item k v] → X (.err e) w')
    (hX : ∀ x w', (IsFault x ∨ x = .throw) → Faulty σ → w'.fs = w.fs → w'.out = w.out → X x w') :
    wp σ (visitStep c ks total cb r) Q X w := by
  obtain ⟨h1, h2, h3⟩ := hok
  rw [value_record, List.append_assoc] at hF
  have hlen : f.cur.length = pre.length + (6 + (k.length + v.length + post.length)) := by
    rw [hF]; simp; omega
  unfold visitStep
  apply wp_bind
  apply wp_prepare (f := f) (by rw [hp]; exact hf) hr
  · intro r1 w1 n1 f1 o1
    have e1 : slice f.cur r.pos 6 = putU48 v.length := slice_at_mid hF hpos rfl
    simp only [e1]
    apply wp_bind
    apply wp_lift_ok (getSize48_ok h3)
    rw [if_pos (by omega)]
    apply wp_bind
    apply wp_attempt
    have hpos1 : r1.pos = (pre ++ putU48 v.length).length := by rw [n1.pos, hpos]; simp
    apply wp_prepare (f := f) (by rw [n1.path, hp, f1]; exact hf) n1.inv
    · intro r2 w2 n2 f2 o2
      have e2 : slice f.cur r1.pos (ks + v.length) = k ++ v := by
        refine slice_at_mid (pre := pre ++ putU48 v.length) (y := k ++ v) (post := post) ?_ hpos1 (by simp [h1])
        rw [hF]; simp
      simp only [e2]
      have e3 : (k ++ v).take ks = k := by rw [← h1]; simp
      have e4 : (k ++ v).drop ks = v := by rw [← h1]; simp
      rw [e3, e4]
      have hout : w2.out ++ [Event.item k v] = w.out ++ [.item k v] := by rw [o2, o1]
      apply wp_bind
      apply wp_emit
      apply wp_bind
      apply wp_history
      simp only [hout]
      cases hcb : cb (w.out ++ [.item k v]) with
      | some e =>
        simp only
        apply wp_bind
        apply wp_fail
        exact hE e hcb _ (f2.trans f1) rfl
      | none =>
        simp only
        apply wp_bind
        apply wp_ret
        apply wp_bind
        apply wp_emit
        apply wp_ret
        have hp2 : r2.pos = pre.length + (6 + k.length + v.length) := by
          rw [n2.pos, n1.pos, hpos, h1]; omega
        refine hQ hcb _ _ n2.inv (n2.path.trans (n1.path.trans hp)) (n2.last.trans (n1.last.trans hl)) hp2
          (f2.trans f1) ?_
        simp [hp2]
    · intro h
      exfalso
      rw [n1.last, hl, hpos1] at h
      simp at h
      omega
    · intro x hx hfa _ _
      rcases hx with rfl | rfl
      · exact hX _ _ (.inl (.inl rfl)) hfa f1 o1
      · simp only
        apply wp_bind
        apply wp_raise
        exact hX _ _ (.inr rfl) hfa f1 o1
  · intro h
    exfalso
    rw [hl, hpos] at h
    omega
  · intro x hx hfa _ _
    exact hX _ _ (.inl hx) hfa rfl rfl

/-- A complete overflow record. -/
theorem wp_visit_overflow {pre post b : Bytes} {r : Reader} {w : World} {Q : Reader → World → Prop} {X : Exc → World → Prop}
    (hf : w.fs .dat = some f) (hF : f.cur = pre ++ ((Record.overflow b).bytes ++ post)) (hok : (Record.overflow b).Ok ks)
    (hr : RInv r f.cur) (hp : r.path = .dat) (hl : r.last = f.cur.length) (hpos : r.pos = pre.length)
    (hQ : ∀ r' w', RInv r' f.cur → r'.path = .dat → r'.last = f.cur.length →
      r'.pos = pre.length + (8 + b.length) → w'.fs = w.fs →
      w'.out = w.out ++ [.progress (pre.length + (8 + b.length)) total] → Q r' w')
    (hX : ∀ x w', IsFault x → Faulty σ → w'.fs = w.fs → w'.out = w.out → X x w') :
    wp σ (visitStep c ks total cb r) Q X w := by
  have h3 : b.length < 2 ^ 16 := hok
  rw [overflow_record, List.append_assoc, List.append_assoc] at hF
  have hlen : f.cur.length = pre.length + (6 + (2 + (b.length + post.length))) := by
    rw [hF]; simp
  unfold visitStep
  apply wp_bind
  apply wp_prepare (f := f) (by rw [hp]; exact hf) hr
  · intro r1 w1 n1 f1 o1
    have e1 : slice f.cur r.pos 6 = putU48 0 := slice_at_mid hF hpos rfl
    simp only [e1]
    apply wp_bind
    apply wp_lift_ok (getSize48_ok (by decide))
    rw [if_neg (by omega)]
    have hp1 : r1.pos = pre.length + 6 := by rw [n1.pos, hpos]
    apply wp_bind
    apply wp_prepare (f := f) (by rw [n1.path, hp, f1]; exact hf) n1.inv
    · intro r2 w2 n2 f2 o2
      have e2 : slice f.cur r1.pos 2 = putU16 b.length := by
        refine slice_at_mid (pre := pre ++ putU48 0) (y := putU16 b.length) (post := b ++ post) ?_ (by rw [hp1]; simp) rfl
        rw [hF]; simp
      simp only [e2, getU16_putU16 h3]
      have hp2 : r2.pos = pre.length + 8 := by rw [n2.pos, hp1]
      apply wp_bind
      apply wp_prepare (f := f) (by rw [n2.path, n1.path, hp, f2, f1]; exact hf) n2.inv
      · intro r3 w3 n3 f3 o3
        apply wp_bind
        apply wp_ret
        apply wp_bind
        apply wp_emit
        apply wp_ret
        have hp3 : r3.pos = pre.length + (8 + b.length) := by rw [n3.pos, hp2]; omega
        refine hQ _ _ n3.inv (n3.path.trans (n2.path.trans (n1.path.trans hp)))
          (n3.last.trans (n2.last.trans (n1.last.trans hl))) hp3 (f3.trans (f2.trans f1)) ?_
        simp [hp3, o3, o2, o1]
      · intro h
        exfalso
        rw [n2.last, n1.last, hl, hp2] at h
        omega
      · intro x hx hfa _ _
        exact hX _ _ hx hfa (f2.trans f1) (o2.trans o1)
    · intro h
      exfalso
      rw [n1.last, hl, hp1] at h
      omega
    · intro x hx hfa _ _
      exact hX _ _ hx hfa f1 o1
  · intro h
    exfalso
    rw [hl, hpos] at h
    omega
  · intro x hx hfa _ _
    exact hX _ _ hx hfa rfl rfl

/-- An incomplete record. -/
theorem wp_visit_cut {pre tail : Bytes} {r : Reader} {w : World} {Q : Reader → World → Prop} {X : Exc → World → Prop} {x0 : Exc}
    (hcut : CutOff ks tail x0)
    (hf : w.fs .dat = some f) (hF : f.cur = pre ++ tail)
    (hr : RInv r f.cur) (hp : r.path = .dat) (hl : r.last = f.cur.length) (hpos : r.pos = pre.length)
    (hQ : ∀ w', w'.fs = w.fs → w'.out = w.out → X x0 w')
    (hX : ∀ x w', (IsFault x ∨ x = .throw) → Faulty σ → w'.fs = w.fs → w'.out = w.out → X x w') :
    wp σ (visitStep c ks total cb r) Q X w := by
  have hlen : f.cur.length = pre.length + tail.length := by rw [hF]; simp
  have hs : ∀ {o n}, slice f.cur (pre.length + o) n = slice tail o n := by
    intro o n
    rw [hF, slice_append_right (by omega)]
    congr 1; omega
  unfold visitStep
  apply wp_bind
  apply wp_prepare (f := f) (by rw [hp]; exact hf) hr
  · intro r1 w1 n1 f1 o1
    have hp1 : r1.pos = pre.length + 6 := by rw [n1.pos, hpos]
    have hle := n1.le
    rw [hl, hpos, hlen] at hle
    have e1 : slice f.cur r.pos 6 = slice tail 0 6 := by rw [hpos]; exact hs (o := 0)
    have hl6 : (slice tail 0 6).length = 6 := slice_length_of_le (by omega)
    have hpre : ∀ {n : Nat} {Q' : Bytes × Reader → World → Prop} {X' : Exc → World → Prop},
        tail.length < 6 + n → (∀ w', w'.fs = w.fs → w'.out = w.out → X' (.err .short_read) w') →
        (∀ x w', IsFault x → Faulty σ → w'.fs = w.fs → w'.out = w.out → X' x w') →
        wp σ (r1.prepare c n) Q' X' w1 := by
      intro n Q' X' hn h1 h2
      apply wp_prepare (f := f) (by rw [n1.path, hp, f1]; exact hf) n1.inv
      · intro r2 w2 n2 f2 o2
        have := n2.le
        rw [n1.last, hl, hp1, hlen] at this
        omega
      · intro _; exact h1 _ f1 o1
      · intro x hx hfa _ _; exact h2 _ _ hx hfa f1 o1
    simp only [e1]
    apply wp_bind
    cases hcut with
    | size h h' => omega
    | value h h1 h2 h' =>
      simp only [bytesAt_eq] at h1 h2 h'
      apply wp_lift_ok (getSize48_val hl6 h2)
      rw [if_pos (by omega)]
      apply wp_bind
      apply wp_attempt
      apply hpre (by omega)
      · intro w' h1 h2
        simp only
        exact wp_bind (wp_raise (hQ _ h1 h2))
      · intro x w' hx hfa h1 h2
        rcases hx with rfl | rfl
        · exact hX _ _ (.inl (.inl rfl)) hfa h1 h2
        · simp only
          exact wp_bind (wp_raise (hX _ _ (.inr rfl) hfa h1 h2))
    | bodySize h h0 h' =>
      simp only [bytesAt_eq] at h0
      apply wp_lift_ok (getSize48_val hl6 (by omega))
      rw [if_neg (by omega)]
      apply wp_bind
      apply hpre (by omega) hQ
      intro x w' hx hfa h1 h2
      exact hX _ _ (.inl hx) hfa h1 h2
    | body h h0 h' =>
      simp only [bytesAt_eq] at h0 h'
      apply wp_lift_ok (getSize48_val hl6 (by omega))
      rw [if_neg (by omega)]
      apply wp_bind
      apply wp_prepare (f := f) (by rw [n1.path, hp, f1]; exact hf) n1.inv
      · intro r2 w2 n2 f2 o2
        have hp2 : r2.pos = pre.length + 8 := by rw [n2.pos, hp1]
        have e2 : slice f.cur r1.pos 2 = slice tail 6 2 := by rw [hp1]; exact hs
        simp only [e2, C18_u16.reads _ (slice_length_of_le (show 6 + 2 ≤ tail.length by omega))]
        apply wp_bind
        apply wp_prepare (f := f) (by rw [n2.path, n1.path, hp, f2, f1]; exact hf) n2.inv
        · intro r3 w3 n3 f3 o3
          exfalso
          have := n3.le
          rw [n2.last, n1.last, hl, hp2, hlen] at this
          omega
        · intro _
          exact hQ _ (f2.trans f1) (o2.trans o1)
        · intro x hx hfa _ _
          exact hX _ _ (.inl hx) hfa (f2.trans f1) (o2.trans o1)
      · intro h
        exfalso
        rw [n1.last, hl, hp1] at h
        omega
      · intro x hx hfa _ _
        exact hX _ _ (.inl hx) hfa f1 o1
  · intro h
    rw [hl, hpos, hlen] at h
    have : x0 = .err .short_read := by
      cases hcut with
      | size => rfl
      | value h => omega
      | bodySize => rfl
      | body h => rfl
    rw [← this]
    exact hQ _ rfl rfl
  · intro x hx hfa _ _
    exact hX _ _ (.inl hx) hfa rfl rfl

/-- The loop of `visit`. -/
theorem wp_visitLoop {tail : Bytes} {x0 : Option Exc} (htail : match x0 with | none => tail = [] | some x => CutOff ks tail x)
    (rs : List Record) : ∀ {fuel : Nat} {pre : Bytes} {r : Reader} {w : World},
    w.fs .dat = some f → f.cur = pre ++ (layout rs ++ tail) → (∀ x ∈ rs, x.Ok ks) → RInv r f.cur → r.path = .dat →
    r.last = f.cur.length → r.pos = pre.length → (layout rs ++ tail).length < fuel →
    wp σ (visitLoop c ks total cb fuel r)
      (fun _ w' => w'.fs = w.fs ∧ x0 = none ∧ (tour total cb w.out pre.length rs).1 = none ∧
        w'.out = (tour total cb w.out pre.length rs).2)
      (fun x w' => w'.fs = w.fs ∧ VisitEnd σ ks tail (tour total cb w.out pre.length rs) w.out x w'.out) w := by
  induction rs with
  | nil =>
    intro fuel pre r w hf hF hok hr hp hl hpos hfuel
    have hF' : f.cur = pre ++ tail := hF
    have hlen : f.cur.length = pre.length + tail.length := by rw [hF']; simp
    have hfu : tail.length < fuel := hfuel
    obtain ⟨fuel, rfl⟩ : ∃ n, fuel = n + 1 := ⟨fuel - 1, by omega⟩
    unfold visitLoop
    by_cases ht : tail = []
    · rw [if_pos (by simp only [Reader.eof, decide_eq_true_eq]; rw [hl, hpos, hlen, ht]; simp)]
      apply wp_ret
      refine ⟨rfl, ?_, rfl, rfl⟩
      cases x0 with
      | none => rfl
      | some x =>
        subst ht
        rcases htail with h | h | h | h
        all_goals simp at h
    · have hx : ∃ x, x0 = some x ∧ CutOff ks tail x := by
        cases x0 with
        | none => exact absurd htail ht
        | some x => exact ⟨x, rfl, htail⟩
      obtain ⟨x, rfl, hcut⟩ := hx
      have htl : 0 < tail.length := List.length_pos_iff.mpr ht
      rw [if_neg (by simp only [Reader.eof, decide_eq_true_eq]; rw [hl, hpos, hlen]; omega)]
      apply wp_bind
      apply wp_visit_cut hcut hf hF' hr hp hl hpos
      · intro w' h1 h2
        refine ⟨h1, ?_⟩
        rw [h2]
        exact .torn rfl hcut
      · intro x w' hx hfa h1 h2
        refine ⟨h1, ?_⟩
        rw [h2]
        exact .fault hx hfa (List.prefix_refl _) (List.prefix_refl _)
  | cons rec rs ih =>
    intro fuel pre r w hf hF hok hr hp hl hpos hfuel
    have hF' : f.cur = pre ++ (rec.bytes ++ (layout rs ++ tail)) := by
      rw [hF, layout_cons, List.append_assoc]
    have hF2 : f.cur = (pre ++ rec.bytes) ++ (layout rs ++ tail) := by rw [hF']; simp
    have hfu : rec.bytes.length + (layout rs ++ tail).length < fuel := by
      rw [layout_cons] at hfuel; simp at hfuel ⊢; omega
    have hpl : 0 < rec.bytes.length := by cases rec <;> simp [Record.bytes, bigEndian]
    obtain ⟨fuel, rfl⟩ : ∃ n, fuel = n + 1 := ⟨fuel - 1, by omega⟩
    have hlen : f.cur.length = pre.length + (rec.bytes.length + (layout rs ++ tail).length) := by
      rw [hF']; simp
    unfold visitLoop
    rw [if_neg (by simp only [Reader.eof, decide_eq_true_eq]; rw [hl, hpos, hlen]; omega)]
    apply wp_bind
    cases rec with
    | value k v =>
      have hb : (Record.value k v).bytes.length = 6 + k.length + v.length := by
        rw [value_record]; simp; omega
      apply wp_visit_value hf hF' (hok _ (by simp)) hr hp hl hpos
      · intro hcb r' w' a1 a2 a3 a4 a5 a6
        have h := ih (fuel := fuel) (w := w') (by rw [a5]; exact hf) hF2 (fun x hx => hok x (by simp [hx])) a1 a2 a3
          (by rw [a4, List.length_append, hb]) (by omega)
        rw [a5, a6, List.length_append, hb] at h
        simp only [tour, hcb]
        refine wp_conseq h (fun _ _ h => h) (fun _ _ h => ⟨h.1, h.2.base ?_⟩)
        rw [List.append_assoc]; exact List.prefix_append _ _
      · intro e hcb w' a1 a2
        refine ⟨a1, ?_⟩
        have e' : tour total cb w.out pre.length (.value k v :: rs) = (some e, w.out ++ [.item k v]) := by
          simp only [tour, hcb]
        rw [a2, e']
        exact .callback rfl
      · intro x w' hx hfa a1 a2
        refine ⟨a1, ?_⟩
        rw [a2]
        exact .fault hx hfa (List.prefix_refl _) (tour_prefix _ _ _ _ _)
    | overflow b =>
      have hb : (Record.overflow b).bytes.length = 8 + b.length := by
        rw [overflow_record]; simp; omega
      apply wp_visit_overflow hf hF' (hok _ (by simp)) hr hp hl hpos
      · intro r' w' a1 a2 a3 a4 a5 a6
        have h := ih (fuel := fuel) (w := w') (by rw [a5]; exact hf) hF2 (fun x hx => hok x (by simp [hx])) a1 a2 a3
          (by rw [a4, List.length_append, hb]) (by omega)
        rw [a5, a6, List.length_append, hb] at h
        exact wp_conseq h (fun _ _ h => h) (fun _ _ h => ⟨h.1, h.2.base (List.prefix_append _ _)⟩)
      · intro x w' hx hfa a1 a2
        refine ⟨a1, ?_⟩
        rw [a2]
        exact .fault (.inl hx) hfa (List.prefix_refl _) (tour_prefix _ _ _ _ _)

theorem verifyDat_header {h D rest : Bytes} (hh : DataHeader ks h) (hD : D = h ++ rest) :
    (getDatHeader (slice D 0 92)).keySize = ks ∧ verifyDat (getDatHeader (slice D 0 92)) = .ok () := by
  have e : slice D 0 92 = h := by
    rw [hD, slice_append_left (by rw [hh.length]; omega), ← hh.length, slice_full]
  have h1 := hh.signature
  have h2 := hh.version
  have h3 := hh.key
  have hl := hh.length
  rw [bytesAt_eq] at h1 h2 h3
  rw [← C18_u16.reads _ (slice_length_of_le (by omega))] at h2 h3
  rw [e]
  have hk : (getDatHeader h).keySize = ks := h3
  refine ⟨hk, ?_⟩
  have ht : (getDatHeader h).type = datType := h1
  have hv : (getDatHeader h).version = currentVersion := h2
  have hp := hh.pos
  unfold verifyDat
  rw [if_neg (by rw [ht]; simp), if_neg (by rw [hv]; simp), if_neg (by rw [hk]; omega)]

/-- `visit` on a data file, perhaps with an incomplete record at its end. -/
theorem wp_visit {h tail : Bytes} {rs : List Record} {x0 : Option Exc} {w : World}
    (htail : match x0 with | none => tail = [] | some x => CutOff ks tail x) (hh : DataHeader ks h)
    (hf : w.fs .dat = some f) (hF : f.cur = h ++ (layout rs ++ tail)) (hok : ∀ x ∈ rs, x.Ok ks) :
    wp σ (visit c cb)
      (fun _ w' => w'.fs = w.fs ∧ x0 = none ∧
        (tour f.cur.length cb (w.out ++ [.progress 0 f.cur.length]) 92 rs).1 = none ∧
        w'.out = (tour f.cur.length cb (w.out ++ [.progress 0 f.cur.length]) 92 rs).2)
      (fun x w' => w'.fs = w.fs ∧
        VisitEnd σ ks tail (tour f.cur.length cb (w.out ++ [.progress 0 f.cur.length]) 92 rs) w.out x w'.out) w := by
  have hl := hh.length
  have hpre : w.out <+: (tour f.cur.length cb (w.out ++ [.progress 0 f.cur.length]) 92 rs).2 :=
    (List.prefix_append _ _).trans (tour_prefix _ _ _ _ _)
  have hX : ∀ {w' : World} x, IsFault x → Faulty σ → w'.fs = w.fs → w'.out = w.out →
      w'.fs = w.fs ∧ VisitEnd σ ks tail (tour f.cur.length cb (w.out ++ [.progress 0 f.cur.length]) 92 rs) w.out x w'.out := by
    intro w' x hx hfa h1 h2
    exact ⟨h1, by rw [h2]; exact .fault (.inl hx) hfa (List.prefix_refl _) hpre⟩
  obtain ⟨hks, hver⟩ := verifyDat_header hh hF
  have h92 : 92 ≤ f.cur.length := by rw [hF]; simp; omega
  unfold visit
  apply wp_bind
  apply wp_fOpen (by exact hf) _ (fun x hx hfa => hX x hx hfa rfl rfl)
  apply wp_bind
  unfold readDatHeader
  apply wp_bind
  apply wp_fRead (f := f) (by exact hf) (by simp only [datHeaderSize]; omega) _ (fun x hx hfa => hX x hx hfa rfl rfl)
  apply wp_ret
  apply wp_bind
  apply wp_check_ok hver
  apply wp_bind
  apply wp_fSize (f := f) (by exact hf) _ (fun x hx hfa => hX x hx hfa rfl rfl)
  apply wp_bind
  apply wp_emit
  have e92 : datHeaderSize = 92 := rfl
  simp only [e92, hks]
  have := wp_visitLoop (σ := σ) (c := c) (total := f.cur.length) (cb := cb) (f := f) htail rs (fuel := f.cur.length + 1) (pre := h)
    (r := Reader.new c .dat 92 f.cur.length (1024 * 4096))
    (w := { fs := w.fs, clock := w.clock + 1 + 1 + 1, out := w.out ++ [.progress 0 f.cur.length] })
    hf hF hok (rinv_new c .dat (Nat.le_refl _) h92) rfl rfl (by rw [hl]; rfl) (by rw [hF]; simp; omega)
  rw [hl] at this
  exact wp_conseq this (fun _ _ h => h) (fun _ _ h => ⟨h.1, h.2.base (List.prefix_append _ _)⟩)

end

/-- Progress reports between `lo` and `hi`, in order. -/
structure Steps (total lo hi : Nat) (evs : List Event) : Prop where
  total : ∀ p ∈ progressed evs, p.2 = total ∧ lo ≤ p.1 ∧ p.1 ≤ hi
  order : ((progressed evs).map Prod.fst).Pairwise (· ≤ ·)

theorem progressed_append (x y : List Event) : progressed (x ++ y) = progressed x ++ progressed y := by
  simp [progressed]

theorem Steps.nil (total lo hi : Nat) : Steps total lo hi [] := ⟨by simp [progressed], by simp [progressed]⟩

theorem Steps.item {total lo hi : Nat} {k v : Bytes} : Steps total lo hi [.item k v] :=
  ⟨by simp [progressed], by simp [progressed]⟩

theorem Steps.progress {total lo hi n : Nat} (h1 : lo ≤ n) (h2 : n ≤ hi) : Steps total lo hi [.progress n total] :=
  ⟨by simp [progressed, h1, h2], by simp [progressed]⟩

theorem Steps.append {total lo mid hi : Nat} {x y : List Event} (hx : Steps total lo mid x) (hy : Steps total mid hi y)
    (h1 : lo ≤ mid) (h2 : mid ≤ hi) : Steps total lo hi (x ++ y) where
  total := by
    intro p hp
    rw [progressed_append] at hp
    rcases List.mem_append.mp hp with hp | hp
    · have := hx.total p hp; exact ⟨this.1, this.2.1, by omega⟩
    · have := hy.total p hp; exact ⟨this.1, by omega, this.2.2⟩
  order := by
    rw [progressed_append, List.map_append, List.pairwise_append]
    refine ⟨hx.order, hy.order, ?_⟩
    intro a ha b hb
    obtain ⟨p, hp, rfl⟩ := List.mem_map.mp ha
    obtain ⟨q, hq, rfl⟩ := List.mem_map.mp hb
    exact Nat.le_trans (hx.total p hp).2.2 (hy.total q hq).2.1

theorem Steps.mono {total lo lo' hi hi' : Nat} {x : List Event} (h : Steps total lo hi x) (h1 : lo' ≤ lo) (h2 : hi ≤ hi') :
    Steps total lo' hi' x where
  total := fun p hp => by have := h.total p hp; exact ⟨this.1, by omega, by omega⟩
  order := h.order

theorem Steps.steady {total lo hi : Nat} {x : List Event} (h : Steps total lo hi x) (h2 : hi ≤ total) : Steady x :=
  ⟨total, fun p hp => by have := h.total p hp; exact ⟨this.1, by omega⟩, h.order⟩

theorem wp_lift_any {σ : Schedule} {α : Type} {x : Res α} {Q : α → World → Prop} {X : Exc → World → Prop} {w : World}
    (hQ : ∀ a, x = .ok a → Q a w) (hX : ∀ e, x = .error e → X e w) : wp σ (M.lift x) Q X w := by
  cases x with
  | error e => exact hX e rfl
  | ok a => exact hQ a rfl

section
variable {σ : Schedule} {c : Cfg} {ks total : Nat} {cb : List Event → Option Err} {f : FileSt}

/-- `visit` on arbitrary bytes. -/
theorem wp_visitStep_any {r : Reader} {w : World} {Q : Reader → World → Prop} {X : Exc → World → Prop}
    (hf : w.fs .dat = some f) (hr : RInv r f.cur) (hp : r.path = .dat) (hl : r.last = total)
    (hQ : ∀ r' w' evs, RInv r' f.cur → r'.path = .dat → r'.last = total → r.pos ≤ r'.pos → r'.pos ≤ total → w'.fs = w.fs →
      w'.out = w.out ++ evs → Steps total r.pos r'.pos evs → Q r' w')
    (hX : ∀ x w' evs, w'.fs = w.fs → w'.out = w.out ++ evs → Steps total r.pos r.pos evs → X x w') :
    wp σ (visitStep c ks total cb r) Q X w := by
  have hX0 : ∀ x w', w'.fs = w.fs → w'.out = w.out → X x w' := fun x w' h1 h2 =>
    hX x w' [] h1 (by rw [h2, List.append_nil]) (Steps.nil _ _ _)
  unfold visitStep
  apply wp_bind
  apply wp_prepare (f := f) (by rw [hp]; exact hf) hr
  · intro r1 w1 n1 f1 o1
    apply wp_bind
    apply wp_lift_any
    · intro size _
      dsimp only
      split
      · apply wp_bind
        apply wp_attempt
        apply wp_prepare (f := f) (by rw [n1.path, hp, f1]; exact hf) n1.inv
        · intro r2 w2 n2 f2 o2
          dsimp only
          generalize List.take ks (slice f.cur r1.pos (ks + size)) = k
          generalize List.drop ks (slice f.cur r1.pos (ks + size)) = v
          apply wp_bind; apply wp_emit
          apply wp_bind; apply wp_history
          have a1 := n1.pos
          have a2 := n2.pos
          have a3 := n2.le
          rw [n1.last, hl] at a3
          split
          · apply wp_bind; apply wp_fail
            exact hX _ _ [.item k v] (f2.trans f1) (by show _ ++ _ = _; rw [o2, o1]) Steps.item
          · apply wp_bind; apply wp_ret
            apply wp_bind; apply wp_emit
            apply wp_ret
            refine hQ _ _ ([.item k v] ++ [.progress r2.pos total]) n2.inv (n2.path.trans (n1.path.trans hp))
              (n2.last.trans (n1.last.trans hl)) (by omega) (by omega) (f2.trans f1) ?_ ?_
            · show _ ++ _ ++ _ = _; rw [o2, o1, List.append_assoc]
            · exact Steps.append (mid := r.pos) Steps.item (Steps.progress (by omega) (by omega)) (Nat.le_refl _) (by omega)
        · intro _
          apply wp_bind; apply wp_raise; exact hX0 _ _ f1 o1
        · intro x hx _ _ _
          rcases hx with rfl | rfl
          · exact hX0 _ _ f1 o1
          · apply wp_bind; apply wp_raise; exact hX0 _ _ f1 o1
      · apply wp_bind
        apply wp_prepare (f := f) (by rw [n1.path, hp, f1]; exact hf) n1.inv
        · intro r2 w2 n2 f2 o2
          apply wp_bind
          apply wp_prepare (f := f) (by rw [n2.path, n1.path, hp, f2, f1]; exact hf) n2.inv
          · intro r3 w3 n3 f3 o3
            apply wp_bind; apply wp_ret
            apply wp_bind; apply wp_emit
            apply wp_ret
            have a1 := n1.pos
            have a2 := n2.pos
            have a3 := n3.pos
            have a4 := n3.le
            rw [n2.last, n1.last, hl] at a4
            refine hQ r3 _ [.progress r3.pos total] n3.inv (n3.path.trans (n2.path.trans (n1.path.trans hp)))
              (n3.last.trans (n2.last.trans (n1.last.trans hl))) (by omega) (by omega) (f3.trans (f2.trans f1)) ?_
              (Steps.progress (by omega) (by omega))
            show _ ++ _ = _; rw [o3, o2, o1]
          · intro _; exact hX0 _ _ (f2.trans f1) (o2.trans o1)
          · intro x _ _ _ _; exact hX0 _ _ (f2.trans f1) (o2.trans o1)
        · intro _; exact hX0 _ _ f1 o1
        · intro x _ _ _ _; exact hX0 _ _ f1 o1
    · intro e _; exact hX0 _ _ f1 o1
  · intro _; exact hX0 _ _ rfl rfl
  · intro x _ _ _ _; exact hX0 _ _ rfl rfl

theorem wp_visitLoop_any (fuel : Nat) : ∀ {r : Reader} {w : World}, w.fs .dat = some f → RInv r f.cur → r.path = .dat →
    r.last = total → r.pos ≤ total → wp σ (visitLoop c ks total cb fuel r)
      (fun _ w' => w'.fs = w.fs ∧ ∃ evs, w'.out = w.out ++ evs ∧ Steps total r.pos total evs)
      (fun _ w' => w'.fs = w.fs ∧ ∃ evs, w'.out = w.out ++ evs ∧ Steps total r.pos total evs) w := by
  induction fuel with
  | zero => intro r w _ _ _ _ _; exact ⟨rfl, [], by simp, Steps.nil _ _ _⟩
  | succ n ih =>
    intro r w hf hr hp hl hle
    unfold visitLoop
    split
    · exact wp_ret ⟨rfl, [], by simp, Steps.nil _ _ _⟩
    · apply wp_bind
      apply wp_visitStep_any hf hr hp hl
      · intro r' w' evs a1 a2 a3 a4 a5 a6 a7 a8
        have h := ih (w := w') (by rw [a6]; exact hf) a1 a2 a3 a5
        have hgo : ∀ w'' : World, (w''.fs = w'.fs ∧ ∃ evs, w''.out = w'.out ++ evs ∧ Steps total r'.pos total evs) →
            w''.fs = w.fs ∧ ∃ evs, w''.out = w.out ++ evs ∧ Steps total r.pos total evs := by
          rintro w'' ⟨b1, evs', b2, b3⟩
          exact ⟨b1.trans a6, evs ++ evs', by rw [b2, a7, List.append_assoc], a8.append b3 a4 a5⟩
        exact wp_conseq h (fun _ _ h => hgo _ h) (fun _ _ h => hgo _ h)
      · intro x w' evs a1 a2 a3
        exact ⟨a1, evs, a2, a3.mono (Nat.le_refl _) hle⟩

theorem wp_visit_any {w : World} : wp σ (visit c cb)
      (fun _ w' => ∃ evs, w'.out = w.out ++ evs ∧ Steady evs) (fun _ w' => ∃ evs, w'.out = w.out ++ evs ∧ Steady evs) w := by
  have hX0 : ∀ w' : World, w'.out = w.out → ∃ evs, w'.out = w.out ++ evs ∧ Steady evs :=
    fun w' h => ⟨[], by rw [h, List.append_nil], (Steps.nil 0 0 0).steady (Nat.le_refl _)⟩
  unfold visit
  apply wp_bind
  cases hf : w.fs .dat with
  | none =>
    apply wp_fOpen_none hf
    · exact hX0 _ rfl
    · intro x _ _; exact hX0 _ rfl
  | some f =>
  apply wp_fOpen (by exact hf) _ (fun x _ _ => hX0 _ rfl)
  apply wp_bind
  unfold readDatHeader
  apply wp_bind
  by_cases h92 : f.cur.length < 92
  · exact wp_fRead_short (f := f) (by exact hf) (by decide) (by simp only [datHeaderSize]; omega) (hX0 _ rfl) (fun x _ _ => hX0 _ rfl)
  apply wp_fRead (f := f) (by exact hf) (by simp only [datHeaderSize]; omega) _ (fun x _ _ => hX0 _ rfl)
  apply wp_ret
  apply wp_bind
  cases verifyDat (getDatHeader (slice f.cur 0 datHeaderSize)) with
  | error e => exact hX0 _ rfl
  | ok u =>
  apply wp_check_ok rfl
  apply wp_bind
  apply wp_fSize (f := f) (by exact hf) _ (fun x _ _ => hX0 _ rfl)
  apply wp_bind
  apply wp_emit
  have h := wp_visitLoop_any (σ := σ) (c := c) (ks := (getDatHeader (slice f.cur 0 datHeaderSize)).keySize) (total := f.cur.length) (cb := cb) (f := f) (f.cur.length + 1)
    (r := Reader.new c .dat datHeaderSize f.cur.length (1024 * 4096))
    (w := { fs := w.fs, clock := w.clock + 1 + 1 + 1, out := w.out ++ [.progress 0 f.cur.length] })
    hf (rinv_new c .dat (Nat.le_refl _) (by simp only [datHeaderSize]; omega)) rfl rfl
    (by show datHeaderSize - 0 ≤ _; simp only [datHeaderSize]; omega)
  have hgo : ∀ w' : World, (w'.fs = w.fs ∧ ∃ evs, w'.out = (w.out ++ [.progress 0 f.cur.length]) ++ evs ∧
      Steps f.cur.length (Reader.new c .dat datHeaderSize f.cur.length (1024 * 4096)).pos f.cur.length evs) →
      ∃ evs, w'.out = w.out ++ evs ∧ Steady evs := by
    rintro w' ⟨_, evs, b2, b3⟩
    refine ⟨[.progress 0 f.cur.length] ++ evs, by rw [b2, List.append_assoc], ?_⟩
    exact ((Steps.progress (lo := 0) (hi := 0) (Nat.le_refl _) (Nat.le_refl _)).append (b3.mono (Nat.zero_le _) (Nat.le_refl _))
      (Nat.zero_le _) (Nat.zero_le _)).steady (Nat.le_refl _)
  exact wp_conseq h (fun _ _ h => hgo _ h) (fun _ _ h => hgo _ h)

end

/-- The records of a well formed data file. -/
def Rec.toRecord : Rec → Record
  | .data k v => .value k v
  | .spill es s => .overflow (encBkt es s)

theorem toRecord_bytes (r : Rec) : r.toRecord.bytes = encRec r := by
  cases r with
  | data k v => rw [Rec.toRecord, value_record]; simp [encRec, dataRecord]
  | spill es s => rw [Rec.toRecord, overflow_record]; simp [encRec, encBkt_length, bucketSize]

theorem layout_toRecord (rs : List Rec) : layout (rs.map Rec.toRecord) = encRecs rs := by
  induction rs with
  | nil => rfl
  | cons r rs ih => rw [List.map_cons, layout_cons, ih, toRecord_bytes]; rfl

theorem values_toRecord (rs : List Rec) : values (rs.map Rec.toRecord) = pairsOf rs := by
  induction rs with
  | nil => rfl
  | cons r rs ih =>
    cases r
    · simp only [List.map_cons, Rec.toRecord, values, List.filterMap_cons, pairsOf] at *
      rw [ih]
    · simp only [List.map_cons, Rec.toRecord, values, List.filterMap_cons, pairsOf] at *
      rw [ih]

end NuDB
