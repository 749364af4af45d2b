import Verif.Spec.Native
import Verif.Proof.Crash
import Verif.Proof.Prog
/- The loops of `posix_file` and `win32_file`. -/
namespace NuDB

open Spec

section covered

theorem writeAt_get {f bs : Bytes} {o : Nat} (hb : bs ≠ []) (i : Nat) :
    (writeAt f o bs)[i]? = if i < o then (if i < f.length then f[i]? else some 0)
      else if i < o + bs.length then bs[i - o]? else f[i]? := by
  split
  · rename_i h
    split
    · rename_i h'; exact writeAt_getElem? (.inl h) h'
    · rename_i h'
      unfold writeAt
      rw [if_neg hb]
      simp only [put, List.append_assoc]
      rw [List.getElem?_append_left (by simp; omega), List.getElem?_take, if_pos h,
        List.getElem?_append_right (by omega), zeros, List.getElem?_replicate, if_pos (by omega)]
  · split
    · exact writeAt_getElem?_in (by omega) (by assumption)
    · by_cases h' : i < f.length
      · exact writeAt_getElem? (.inr (by omega)) h'
      · rw [List.getElem?_eq_none (by rw [writeAt_length hb]; omega), List.getElem?_eq_none (by omega)]

theorem writeAt_split (f : Bytes) (o : Nat) (a b : Bytes) :
    writeAt (writeAt f o a) (o + a.length) b = writeAt f o (a ++ b) := by
  by_cases ha : a = []
  · subst ha; simp
  by_cases hb : b = []
  · subst hb; simp
  have hab : a ++ b ≠ [] := by simp [ha]
  have hl := writeAt_length (f := f) (o := o) ha
  have hp : a.length ≠ 0 := by simpa using ha
  apply List.ext_getElem?
  intro i
  rw [writeAt_get hb, writeAt_get hab, writeAt_get ha, hl, List.length_append]
  by_cases h1 : i < o
  · simp only [h1, if_true, if_pos (show i < o + a.length by omega), if_pos (show i < max f.length (o + a.length) by omega)]
  · by_cases h2 : i < o + a.length
    · simp only [h1, h2, if_true, if_false, if_pos (show i < max f.length (o + a.length) by omega),
        if_pos (show i < o + (a.length + b.length) by omega)]
      rw [List.getElem?_append_left (by omega)]
    · by_cases h3 : i < o + a.length + b.length
      · simp only [h1, h2, h3, if_true, if_false, if_pos (show i < o + (a.length + b.length) by omega)]
        rw [List.getElem?_append_right (by omega)]
        congr 1; omega
      · simp only [h1, h2, h3, if_false, if_neg (show ¬ i < o + (a.length + b.length) by omega)]

/-- Cut short, a write leaves a mixture of what was there before and what should be there. -/
theorem partial_unordered {u v bs : Bytes} {o j : Nat} {f : FileSt} (hu : Version f u) (hv : Version f v)
    (e : v = writeAt u o bs) : Unordered f (writeAt u o (bs.take j)) := by
  by_cases ht : bs.take j = []
  · rw [ht, writeAt_nil]
    exact ⟨fun i h => .inl ⟨u, hu, by simp [h]⟩, ⟨u, hu, Nat.le_refl _⟩, ⟨u, hu, Nat.le_refl _⟩⟩
  have hb : bs ≠ [] := by rintro rfl; simp at ht
  refine ⟨fun i h => .inl ?_, ⟨u, hu, writeAt_le_length ..⟩, ⟨v, hv, ?_⟩⟩
  · rw [← List.getElem?_eq_getElem h, writeAt_get ht]
    have hl : (bs.take j).length = min j bs.length := by simp
    by_cases h1 : i < o
    · refine ⟨v, hv, ?_⟩
      rw [e, writeAt_get hb, if_pos h1, if_pos h1]
    · rw [if_neg h1]
      split
      · rename_i h2
        rw [hl] at h2
        refine ⟨v, hv, ?_⟩
        rw [e, writeAt_get hb, if_neg h1, if_pos (by omega), List.getElem?_take, if_pos (by omega)]
      · exact ⟨u, hu, rfl⟩
  · rw [e, writeAt_length ht, writeAt_length hb]
    have : (bs.take j).length = min j bs.length := by simp
    omega

theorem Spec.Ordered.unordered {f : FileSt} {img : Bytes} (h : Ordered f img) : Unordered f img := by
  rcases h with h | ⟨k, off, bs, j, h, rfl⟩
  · exact ⟨fun i hi => .inl ⟨img, h, by simp [hi]⟩, ⟨img, h, Nat.le_refl _⟩, ⟨img, h, Nat.le_refl _⟩⟩
  · refine partial_unordered ⟨k, rfl⟩ (v := (f.pend.take (k + 1)).foldl POp.apply f.base) ⟨k + 1, rfl⟩ ?_
    rw [List.take_add_one, h]
    simp [POp.apply]

/-- It is enough to look at changes in order. -/
theorem covered_of {g f : FileSt} (h1 : g.cur = f.cur) (h2 : ∀ img, Ordered g img → Ordered f img) : Covered g f := by
  refine ⟨h1, h2, fun img h => ?_⟩
  have hv : ∀ {v}, Version g v → Unordered f v := fun h => (h2 _ (.inl h)).unordered
  refine ⟨fun i hi => ?_, ?_, ?_⟩
  · rcases h.bytes i hi with ⟨v, h3, h4⟩ | ⟨v, h3, h4, h5⟩
    · have hi' : i < v.length := by
        apply Classical.byContradiction
        intro hn
        rw [List.getElem?_eq_none (by omega)] at h4; cases h4
      have h6 : v[i] = img[i] := by rw [List.getElem?_eq_getElem hi'] at h4; exact Option.some.inj h4
      rcases (hv h3).bytes i hi' with ⟨u, k1, k2⟩ | ⟨u, k1, k2, k3⟩
      · exact .inl ⟨u, k1, by rw [k2, h6]⟩
      · exact .inr ⟨u, k1, k2, by rw [← h6, k3]⟩
    · obtain ⟨u, k1, k2⟩ := (hv h3).lower
      exact .inr ⟨u, k1, by omega, h5⟩
  · obtain ⟨v, h3, h4⟩ := h.lower
    obtain ⟨u, k1, k2⟩ := (hv h3).lower
    exact ⟨u, k1, by omega⟩
  · obtain ⟨v, h3, h4⟩ := h.upper
    obtain ⟨u, k1, k2⟩ := (hv h3).upper
    exact ⟨u, k1, by omega⟩

theorem Spec.Covered.refl (f : FileSt) : Covered f f := ⟨rfl, fun _ h => h, fun _ h => h⟩

theorem Spec.Covered.trans {a b d : FileSt} (h1 : Covered a b) (h2 : Covered b d) : Covered a d :=
  ⟨h1.reads.trans h2.reads, fun i h => h2.ordered i (h1.ordered i h), fun i h => h2.unordered i (h1.unordered i h)⟩

theorem ordered_push {f : FileSt} {op : POp} {img : Bytes} (h : Ordered f img) : Ordered (f.push op) img := by
  rcases h with h | ⟨k, off, bs, j, h, rfl⟩
  · exact .inl (version_push.mpr (.inl h))
  · have hk : k < f.pend.length := by
      apply Classical.byContradiction
      intro hn
      rw [List.getElem?_eq_none (by omega)] at h; cases h
    refine .inr ⟨k, off, bs, j, ?_, ?_⟩
    · simp only [FileSt.push]
      rw [List.getElem?_append_left hk, h]
    · simp only [FileSt.push]
      rw [List.take_append_of_le_length (by omega)]

theorem ordered_part (f : FileSt) (off j : Nat) (bs : Bytes) :
    Ordered (f.push (.write off bs)) (writeAt f.cur off (bs.take j)) := by
  refine .inr ⟨f.pend.length, off, bs, j, ?_, ?_⟩
  · simp [FileSt.push]
  · simp [FileSt.push, FileSt.cur, POp.apply]

theorem Spec.Covered.write {g f : FileSt} (h : Covered g f) (off : Nat) (bs : Bytes) :
    Covered (g.push (.write off bs)) (f.push (.write off bs)) := by
  refine covered_of (by rw [cur_push, cur_push, h.reads]) (fun img hi => ?_)
  rcases ordered_push_write hi with hi | ⟨j, rfl⟩
  · exact ordered_push (h.ordered _ hi)
  · rw [h.reads]; exact ordered_part ..

theorem Spec.Covered.trunc {g f : FileSt} (h : Covered g f) (n : Nat) :
    Covered (g.push (.trunc n)) (f.push (.trunc n)) := by
  refine covered_of (by rw [cur_push, cur_push, h.reads]) (fun img hi => ?_)
  rcases ordered_push_trunc hi with hi | rfl
  · exact ordered_push (h.ordered _ hi)
  · rw [h.reads, show truncAt f.cur n = (f.push (.trunc n)).cur by rw [cur_push]; rfl]
    exact ordered_cur _

theorem Spec.Covered.synced {g f : FileSt} (h : Covered g f) : Covered g.synced f.synced := by
  rw [synced_eq, synced_eq, h.reads]; exact .refl _

/-- Several pieces are covered by one write. -/
theorem covered_pieces {g f : FileSt} {off : Nat} {a b : Bytes} {off' : Nat} (ho : off' = off + a.length)
    (h : Covered g (f.push (.write off a))) : Covered (g.push (.write off' b)) (f.push (.write off (a ++ b))) := by
  subst ho
  refine (h.write _ b).trans (covered_of ?_ (fun img hi => ?_))
  · rw [cur_push, cur_push, cur_push]; exact writeAt_split ..
  · rcases ordered_push_write hi with hi | ⟨j, rfl⟩
    · rcases ordered_push_write hi with hi | ⟨j, rfl⟩
      · exact ordered_push hi
      · have := ordered_part f off (min j a.length) (a ++ b)
        rwa [List.take_append_of_le_length (by omega), show a.take (min j a.length) = a.take j by
          rw [← List.take_take]; simp] at this
    · have := ordered_part f off (a.length + j) (a ++ b)
      rw [List.take_length_add_append, ← writeAt_split] at this
      rw [cur_push]; exact this

/-- Nothing has been written. -/
theorem covered_empty (f : FileSt) (off : Nat) : Covered f (f.push (.write off [])) :=
  covered_of (by rw [cur_push]; simp [POp.apply]) (fun _ h => ordered_push h)

end covered

section read

/-- Both loops. -/
def readLoop (retry : Bool) (mx : Nat) : List (Reply × Bytes) → (off bytes : Nat) → (buffer : Bytes) →
    Option (Res Bytes × List (Reply × Bytes))
  | rs, _, 0, buf => .some (.ok buf, rs)
  | [], _, _ + 1, _ => .none
  | (.intr, _) :: rs, off, bytes + 1, buf =>
    match retry with
    | true => readLoop retry mx rs off (bytes + 1) buf
    | false => .some (.error (.err .io), rs)
  | (.fail, _) :: rs, _, _ + 1, _ => .some (.error (.err .io), rs)
  | (.die _, _) :: rs, _, _ + 1, _ => .some (.error .crash, rs)
  | (.some n, f) :: rs, off, bytes + 1, buf =>
    let m := transferred f off (min (bytes + 1) mx) n
    if m = 0 then .some (.error (.err .short_read), rs)
    else readLoop retry mx rs (off + m) (bytes + 1 - m) (buf ++ slice f off m)

theorem posixRead_eq : ∀ (rs : List (Reply × Bytes)) (off bytes : Nat) (buf : Bytes),
    posixRead rs off bytes buf = readLoop true ssizeMax rs off bytes buf := by
  intro rs
  induction rs with
  | nil => intro off bytes buf; cases bytes <;> rfl
  | cons x rs ih =>
    obtain ⟨x, f⟩ := x
    intro off bytes buf
    cases bytes with
    | zero => rfl
    | succ n => cases x <;> simp only [posixRead, readLoop, ih]

theorem win32Read_eq : ∀ (rs : List (Reply × Bytes)) (off bytes : Nat) (buf : Bytes),
    win32Read rs off bytes buf = readLoop false dwordMax rs off bytes buf := by
  intro rs
  induction rs with
  | nil => intro off bytes buf; cases bytes <;> rfl
  | cons x rs ih =>
    obtain ⟨x, f⟩ := x
    intro off bytes buf
    cases bytes with
    | zero => rfl
    | succ n => cases x <;> simp only [win32Read, readLoop, ih]

/-- What reading may return. -/
theorem readLoop_result {F : Bytes} {retry : Bool} {mx : Nat} (hmx : 0 < mx) : ∀ {rs : List (Reply × Bytes)} {off bytes : Nat} {buf : Bytes} {r : Res Bytes}
    {rest : List (Reply × Bytes)}, (∀ x ∈ rs, slice x.2 off bytes = slice F off bytes) →
    readLoop retry mx rs off bytes buf = .some (r, rest) →
    r = .error (.err .io) ∨ r = .error .crash ∨
      (r = if bytes = 0 ∨ off + bytes ≤ F.length then .ok (buf ++ slice F off bytes) else .error (.err .short_read)) := by
  intro rs
  induction rs with
  | nil =>
    intro off bytes buf r rest hs h
    cases bytes with
    | zero => cases h; simp
    | succ n => cases h
  | cons x rs ih =>
    obtain ⟨x, f⟩ := x
    intro off bytes buf r rest hs h
    cases bytes with
    | zero => simp only [readLoop] at h; cases h; simp
    | succ n =>
      cases x with
      | intr =>
        cases retry with
        | true => exact ih (fun x hx => hs x (by simp [hx])) h
        | false => cases h; exact .inl rfl
      | fail => cases h; exact .inl rfl
      | die _ => cases h; exact .inr (.inl rfl)
      | some k =>
        have hf : slice f off (n + 1) = slice F off (n + 1) := hs (.some k, f) (by simp)
        have hfl := congrArg List.length hf
        rw [slice_length, slice_length] at hfl
        simp only [readLoop] at h
        have hm : transferred f off (min (n + 1) mx) k ≤ min (n + 1) (f.length - off) := by
          unfold transferred; omega
        generalize hme : transferred f off (min (n + 1) mx) k = m at h hm
        split at h
        · rename_i h0
          cases h
          right; right
          rw [if_neg]
          intro hc
          rcases hc with hc | hc
          · omega
          · unfold transferred at hme
            omega
        · rename_i h0
          have := ih (fun x hx => by
            have := hs x (by simp [hx])
            have e : n + 1 = m + (n + 1 - m) := by omega
            rw [e, slice_split, slice_split] at this
            have hl := congrArg (List.drop m) this
            have hxl : m ≤ (slice x.2 off (n + 1)).length := by rw [hs x (by simp [hx]), slice_length]; omega
            rw [slice_length] at hxl
            rw [List.drop_append_of_le_length (by rw [slice_length]; omega),
              List.drop_append_of_le_length (by rw [slice_length]; omega),
              List.drop_of_length_le (by rw [slice_length]; omega),
              List.drop_of_length_le (by rw [slice_length]; omega)] at hl
            simpa using hl) h
          rcases this with h | h | h
          · exact .inl h
          · exact .inr (.inl h)
          · right; right
            rw [h]
            have hsm : slice f off m = slice F off m := by
              have := congrArg (List.take m) hf
              simpa [slice, List.take_take, Nat.min_eq_left (show m ≤ n + 1 by omega)] using this
            have e : n + 1 = m + (n + 1 - m) := by omega
            by_cases hc : off + (n + 1) ≤ F.length
            · rw [if_pos (.inr (by omega)), if_pos (.inr hc), List.append_assoc, hsm]
              conv => rhs; rw [e, slice_split]
            · rw [if_neg, if_neg]
              · omega
              · omega

/-- It returns as soon as the system calls are answered. -/
theorem readLoop_ends {retry : Bool} {mx : Nat} : ∀ {rs : List (Reply × Bytes)} {off bytes : Nat} {buf : Bytes},
    bytes ≤ (rs.filter (fun x => x.1 != .intr)).length → readLoop retry mx rs off bytes buf ≠ .none := by
  intro rs
  induction rs with
  | nil =>
    intro off bytes buf h
    cases bytes with
    | zero => simp [readLoop]
    | succ n => simp at h
  | cons x rs ih =>
    obtain ⟨x, f⟩ := x
    intro off bytes buf h
    cases bytes with
    | zero => simp [readLoop]
    | succ n =>
      cases x with
      | intr =>
        cases retry with
        | true => exact ih (by simpa using h)
        | false => simp [readLoop]
      | fail => simp [readLoop]
      | die _ => simp [readLoop]
      | some k =>
        simp only [readLoop]
        split
        · simp
        · rename_i h0
          refine ih ?_
          simp at h
          omega

/-- Undisturbed, one call after the other. -/
theorem readLoop_calm {retry : Bool} {mx : Nat} : ∀ {rs : List (Reply × Bytes)} {off bytes : Nat} {buf : Bytes}
    {r : Res Bytes} {rest : List (Reply × Bytes)}, (∀ x ∈ rs, (∃ n, x.1 = .some n) ∨ (retry = true ∧ x.1 = .intr)) →
    readLoop retry mx rs off bytes buf = .some (r, rest) → r ≠ .error (.err .io) ∧ r ≠ .error .crash := by
  intro rs
  induction rs with
  | nil =>
    intro off bytes buf r rest hs h
    cases bytes with
    | zero => cases h; simp
    | succ n => cases h
  | cons x rs ih =>
    obtain ⟨x, f⟩ := x
    intro off bytes buf r rest hs h
    cases bytes with
    | zero => simp only [readLoop] at h; cases h; simp
    | succ n =>
      have h0 := hs (x, f) (by simp)
      cases x with
      | intr =>
        simp only [reduceCtorEq, exists_false, false_or, and_true] at h0
        subst h0
        exact ih (fun x hx => hs x (by simp [hx])) h
      | fail => simp at h0
      | die _ => simp at h0
      | some k =>
        simp only [readLoop] at h
        split at h
        · cases h; simp
        · exact ih (fun x hx => hs x (by simp [hx])) h

end read

section write

/-- Both loops. -/
def writeLoop (append retry : Bool) (mx : Nat) : List Reply → FileSt → (off : Nat) → (buffer : Bytes) →
    Option (Res Unit × FileSt × List Reply)
  | rs, f, _, [] => .some (.ok (), f, rs)
  | [], _, _, _ :: _ => .none
  | .intr :: rs, f, off, b :: bs =>
    match retry with
    | true => writeLoop append retry mx rs f off (b :: bs)
    | false => .some (.error (.err .io), f, rs)
  | .fail :: rs, f, _, _ :: _ => .some (.error (.err .io), f, rs)
  | .die n :: rs, f, off, b :: bs =>
    match pwrite append f off ((b :: bs).take n) with
    | .error x => .some (.error x, f, rs)
    | .ok f' => .some (.error .crash, f', rs)
  | .some n :: rs, f, off, b :: bs =>
    if retry = false ∧ min n (min (b :: bs).length mx) = 0 then .some (.error (.err .io), f, rs)
    else
    match pwrite append f off ((b :: bs).take (min n (min (b :: bs).length mx))) with
    | .error x => .some (.error x, f, rs)
    | .ok f' => writeLoop append retry mx rs f' (off + min n (min (b :: bs).length mx)) ((b :: bs).drop (min n (min (b :: bs).length mx)))

theorem posixWrite_eq (append : Bool) : ∀ (rs : List Reply) (f : FileSt) (off : Nat) (bs : Bytes),
    posixWrite append rs f off bs = writeLoop append true ssizeMax rs f off bs := by
  intro rs
  induction rs with
  | nil => intro f off bs; cases bs <;> rfl
  | cons x rs ih =>
    intro f off bs
    cases bs with
    | nil => rfl
    | cons b bs =>
      cases x with
      | intr => simp only [posixWrite, writeLoop, ih]
      | fail => rfl
      | die n => simp only [posixWrite, writeLoop]; cases pwrite append f off ((b :: bs).take n) <;> rfl
      | some n =>
        simp only [posixWrite, writeLoop, ih, Bool.true_eq_false, false_and, if_false]
        cases pwrite append f off ((b :: bs).take (min n (min (b :: bs).length ssizeMax))) <;> rfl

theorem win32Write_eq : ∀ (rs : List Reply) (f : FileSt) (off : Nat) (bs : Bytes),
    win32Write rs f off bs = writeLoop false false dwordMax rs f off bs := by
  intro rs
  induction rs with
  | nil => intro f off bs; cases bs <;> rfl
  | cons x rs ih =>
    intro f off bs
    cases bs with
    | nil => rfl
    | cons b bs => cases x <;> simp [win32Write, writeLoop, ih, pwrite]

/-- What writing may do to a file `f` that has been written `done` bytes already. -/
theorem writeLoop_result {append retry : Bool} {mx : Nat} {f : FileSt} {off : Nat} (ha : append = true → off = f.cur.length) :
    ∀ {rs : List Reply} {g : FileSt} {off' : Nat} {a bs : Bytes} {r : Res Unit} {g' : FileSt} {rest : List Reply},
    off' = off + a.length → Covered g (f.push (.write off a)) →
    writeLoop append retry mx rs g off' bs = .some (r, g', rest) →
    (r = .ok () ∧ Covered g' (f.push (.write off (a ++ bs)))) ∨
    ((r = .error (.err .io) ∨ r = .error .crash) ∧ ∃ k, Covered g' (f.push (.write off ((a ++ bs).take k)))) := by
  intro rs
  have hpw : ∀ {g : FileSt} {off' : Nat} {a b : Bytes}, off' = off + a.length → Covered g (f.push (.write off a)) →
      pwrite append g off' b = .ok (g.push (.write off' b)) := by
    intro g off' a b ho hc
    unfold pwrite
    rw [if_neg]
    rintro ⟨rfl, h⟩
    rw [hc.reads, cur_push] at h
    apply h
    have := ha rfl
    subst this
    rw [ho]
    show _ = (writeAt f.cur f.cur.length a).length
    rw [writeAt_end, List.length_append]
  have hnow : ∀ {g : FileSt} {a bs : Bytes}, Covered g (f.push (.write off a)) →
      ∃ k, Covered g (f.push (.write off ((a ++ bs).take k))) :=
    fun {g a bs} h => ⟨a.length, by rw [List.take_left]; exact h⟩
  induction rs with
  | nil =>
    intro g off' a bs r g' rest ho hc h
    cases bs with
    | nil => cases h; exact .inl ⟨rfl, by rw [List.append_nil]; exact hc⟩
    | cons b bs => cases h
  | cons x rs ih =>
    intro g off' a bs r g' rest ho hc h
    cases bs with
    | nil => simp only [writeLoop] at h; cases h; exact .inl ⟨rfl, by rw [List.append_nil]; exact hc⟩
    | cons b bs =>
      cases x with
      | intr =>
        cases retry with
        | true => exact ih ho hc h
        | false => cases h; exact .inr ⟨.inl rfl, hnow hc⟩
      | fail => cases h; exact .inr ⟨.inl rfl, hnow hc⟩
      | die n =>
        simp only [writeLoop, hpw ho hc] at h
        cases h
        refine .inr ⟨.inr rfl, a.length + n, ?_⟩
        rw [List.take_length_add_append]
        exact covered_pieces ho hc
      | some n =>
        generalize hm : min n (min (b :: bs).length mx) = m
        simp only [writeLoop, hpw ho hc, hm] at h
        split at h
        · cases h; exact .inr ⟨.inl rfl, hnow hc⟩
        · have hml : m ≤ (b :: bs).length := by omega
          have := ih (a := a ++ (b :: bs).take m) (by rw [List.length_append, List.length_take, ho]; omega)
            (covered_pieces ho hc) h
          rw [List.append_assoc, List.take_append_drop] at this
          exact this

/-- Undisturbed, one call after the other. -/
theorem writeLoop_calm {append : Bool} {mx : Nat} {f : FileSt} {off : Nat} {rs : List Reply}
    (hr : ∀ x ∈ rs, (∃ k, x = .some k) ∨ x = .intr) (ha : append = true → off = f.cur.length) :
    ∀ {g : FileSt} {off' : Nat} {a bs : Bytes} {r : Res Unit} {g' : FileSt} {rest : List Reply},
    off' = off + a.length → Covered g (f.push (.write off a)) →
    writeLoop append true mx rs g off' bs = .some (r, g', rest) → r = .ok () := by
  induction rs with
  | nil =>
    intro g off' a bs r g' rest ho hc h
    cases bs with
    | nil => cases h; rfl
    | cons b bs => cases h
  | cons x rs ih =>
    have hr' : ∀ x ∈ rs, (∃ k, x = .some k) ∨ x = .intr := fun x hx => hr x (by simp [hx])
    intro g off' a bs r g' rest ho hc h
    have h0 := hr x (by simp)
    cases bs with
    | nil => simp only [writeLoop] at h; cases h; rfl
    | cons b bs =>
      cases x with
      | intr => exact ih hr' ho hc h
      | fail => simp at h0
      | die n => simp at h0
      | some n =>
        generalize hm : min n (min (b :: bs).length mx) = m
        have hp : pwrite append g off' ((b :: bs).take m) = .ok (g.push (.write off' ((b :: bs).take m))) := by
          unfold pwrite
          rw [if_neg]
          rintro ⟨rfl, hne⟩
          rw [hc.reads, cur_push] at hne
          apply hne
          have := ha rfl
          subst this
          rw [ho]
          show _ = (writeAt f.cur f.cur.length a).length
          rw [writeAt_end, List.length_append]
        simp only [writeLoop, hm, hp, Bool.true_eq_false, false_and, if_false] at h
        exact ih hr' (a := a ++ (b :: bs).take m) (by rw [List.length_append, List.length_take, ho]; omega)
          (covered_pieces ho hc) h

/-- It returns as soon as enough system calls get on. -/
theorem writeLoop_ends {append retry : Bool} {mx : Nat} (hmx : 0 < mx) : ∀ {rs : List Reply} {f : FileSt} {off : Nat} {bs : Bytes},
    bs.length ≤ (rs.filter Reply.advances).length → writeLoop append retry mx rs f off bs ≠ .none := by
  intro rs
  induction rs with
  | nil =>
    intro f off bs h
    cases bs with
    | nil => simp [writeLoop]
    | cons b bs => simp at h
  | cons x rs ih =>
    intro f off bs h
    cases bs with
    | nil => simp [writeLoop]
    | cons b bs =>
      cases x with
      | intr =>
        cases retry with
        | true => exact ih (by simpa [Reply.advances] using h)
        | false => simp [writeLoop]
      | fail => simp [writeLoop]
      | die _ => simp only [writeLoop]; split <;> simp
      | some k =>
        simp only [writeLoop]
        split
        · simp
        · split
          · simp
          · refine ih ?_
            rw [List.length_drop]
            by_cases hk : 0 < k
            · simp only [List.filter_cons, Reply.advances, hk, decide_true, if_true, List.length_cons] at h ⊢
              omega
            · simp only [List.filter_cons, Reply.advances, hk, decide_false] at h
              simp only [Bool.false_eq_true, if_false] at h
              omega

end write

section single

variable {p : Path} {g g' f : FileSt} {r : Res Unit} {rest : List Reply}

theorem set_same {fs : Fs} (h : fs p = some f) : fs.set p (some f) = fs := by
  funext q
  unfold Fs.set
  split
  · rename_i e; rw [e, h]
  · rfl

theorem single_read {F : FileSt} {off n : Nat} {rb : Res Bytes} (hc : Covered g F)
    (h : rb = .error (.err .io) ∨ rb = .error .crash ∨
      (rb = if n = 0 ∨ off + n ≤ g.cur.length then .ok (slice g.cur off n) else .error (.err .short_read))) :
    Single p (fRead p off n) F rb g := by
  have hs : ∀ {fs : Fs}, fs p = some F → fs.set p (some F) = fs := fun h => set_same h
  rcases h with rfl | rfl | rfl
  · refine ⟨.fail 0, F, hc, fun σ w hσ hw => ?_⟩
    simp only [fRead, fileOp, hσ, hs hw]
  · refine ⟨.crash 0, F, hc, fun σ w hσ hw => ?_⟩
    simp only [fRead, fileOp, hσ, hs hw]
  · refine ⟨.none, F, hc, fun σ w hσ hw => ?_⟩
    simp only [fRead, fileOp, hσ, hw, hs hw, hc.reads]
    split <;> rfl

theorem single_write {off : Nat} {bs : Bytes}
    (h : (r = .ok () ∧ Covered g' (f.push (.write off bs))) ∨
      ((r = .error (.err .io) ∨ r = .error .crash) ∧ ∃ k, Covered g' (f.push (.write off (bs.take k))))) :
    Single p (fWrite p off bs) f r g' := by
  rcases h with ⟨rfl, h⟩ | ⟨rfl | rfl, k, h⟩
  · exact ⟨.none, _, h, fun σ w hσ hw => by simp only [fWrite, fileOp, hσ, hw]⟩
  · exact ⟨.fail k, _, h, fun σ w hσ hw => by simp only [fWrite, fileOp, hσ, hw]⟩
  · exact ⟨.crash k, _, h, fun σ w hσ hw => by simp only [fWrite, fileOp, hσ, hw]⟩

theorem single_append {off : Nat} {bs : Bytes} (ho : off = f.cur.length)
    (h : (r = .ok () ∧ Covered g' (f.push (.write off bs))) ∨
      ((r = .error (.err .io) ∨ r = .error .crash) ∧ ∃ k, Covered g' (f.push (.write off (bs.take k))))) :
    Single p (fAppend p off bs) f r g' := by
  rcases h with ⟨rfl, h⟩ | ⟨rfl | rfl, k, h⟩
  · exact ⟨.none, _, h, fun σ w hσ hw => by simp only [fAppend, fileOp, hσ, hw, if_pos ho]⟩
  · exact ⟨.fail k, _, h, fun σ w hσ hw => by simp only [fAppend, fileOp, hσ, hw, if_pos ho]⟩
  · exact ⟨.crash k, _, h, fun σ w hσ hw => by simp only [fAppend, fileOp, hσ, hw, if_pos ho]⟩

theorem posixSync_result : ∀ {rs : List Reply}, posixSync rs g = .some (r, g', rest) →
    (r = .ok () ∧ g' = g.synced) ∨ ((r = .error (.err .io) ∨ r = .error .crash) ∧ g' = g) := by
  intro rs
  induction rs with
  | nil => intro h; cases h
  | cons x rs ih =>
    intro h
    cases x with
    | intr => exact ih h
    | fail => cases h; exact .inr ⟨.inl rfl, rfl⟩
    | die => cases h; exact .inr ⟨.inr rfl, rfl⟩
    | some => cases h; exact .inl ⟨rfl, rfl⟩

theorem posixTrunc_result {n : Nat} : ∀ {rs : List Reply}, posixTrunc rs g n = .some (r, g', rest) →
    (r = .ok () ∧ g' = g.push (.trunc n)) ∨ ((r = .error (.err .io) ∨ r = .error .crash) ∧ g' = g) := by
  intro rs
  induction rs with
  | nil => intro h; cases h
  | cons x rs ih =>
    intro h
    cases x with
    | intr => exact ih h
    | fail => cases h; exact .inr ⟨.inl rfl, rfl⟩
    | die => cases h; exact .inr ⟨.inr rfl, rfl⟩
    | some => cases h; exact .inl ⟨rfl, rfl⟩

end single

section program

theorem Spec.AllCovered.set {gs fs : Fs} (h : AllCovered gs fs) {p : Path} {g f : FileSt} (hc : Covered g f) :
    AllCovered (gs.set p (some g)) (fs.set p (some f)) := by
  intro q
  unfold Fs.set
  by_cases hq : q = p
  · rw [if_pos hq, if_pos hq]; exact .inr ⟨g, f, rfl, rfl, hc⟩
  · rw [if_neg hq, if_neg hq]; exact h q

/-- One schedule for the first operation, another one for the rest. -/
def first (clock : Nat) (fault : Fault) (σ : Schedule) : Schedule := fun i => if i = clock then fault else σ i

/-- A program looks at the schedule only in the future. -/
theorem toM_future {α : Type} (q : Prog α) : ∀ (w : World) (σ τ : Schedule), (∀ i, w.clock ≤ i → σ i = τ i) →
    q.toM σ w = q.toM τ w := by
  have key : ∀ {α β : Type} {ok : Fs → Except Exc β × Fs} {part : Fs → Nat → Fs} {k : β → Prog α}
      (_ : ∀ b (w : World) (σ τ : Schedule), (∀ i, w.clock ≤ i → σ i = τ i) → (k b).toM σ w = (k b).toM τ w)
      (w : World) (σ τ : Schedule), (∀ i, w.clock ≤ i → σ i = τ i) →
      M.bind (fileOp ok part) (fun b => (k b).toM) σ w = M.bind (fileOp ok part) (fun b => (k b).toM) τ w := by
    intro α β ok part k ih w σ τ h
    have h' : ∀ i, w.clock + 1 ≤ i → σ i = τ i := fun i hi => h i (by omega)
    simp only [M.bind, fileOp, h w.clock (Nat.le_refl _)]
    cases τ w.clock with
    | none =>
      simp only
      cases (ok w.fs).1 with
      | ok b => exact ih b _ σ τ h'
      | error x => rfl
    | fail k => rfl
    | crash k => rfl
  induction q with
  | ret a => intro w σ τ _; rfl
  | raise x => intro w σ τ _; rfl
  | size p k ih => exact key ih
  | read p off n k ih => exact key ih
  | write p off bs k ih => exact key (fun _ => ih)
  | append p off bs k ih => exact key (fun _ => ih)
  | sync p k ih => exact key (fun _ => ih)
  | trunc p n k ih => exact key (fun _ => ih)

/-- What is to be shown. -/
def Runs {α : Type} (q : Prog α) (fs : Fs) (rr : Res α) (gs' : Fs) : Prop :=
  ∀ clock out, ∃ σ : Schedule, (q.toM σ ⟨fs, clock, out⟩).1 = .error .ub ∨
    ((q.toM σ ⟨fs, clock, out⟩).1 = rr ∧ AllCovered gs' (q.toM σ ⟨fs, clock, out⟩).2.fs)

variable {α β : Type} {q : Prog α} {m : M β} {k : β → Prog α} {p : Path} {gs gs' fs : Fs} {f g g' : FileSt} {x : Exc} {b : β}
  {rr : Res α}

theorem runs_error (hq : q.toM = M.bind m (fun b => (k b).toM)) (hc : AllCovered gs fs) (hf : fs p = some f)
    (h : Single p m f (.error x) g') : Runs q fs (.error x) (gs.set p (some g')) := by
  intro clock out
  obtain ⟨fault, f', h1, h2⟩ := h
  refine ⟨fun _ => fault, .inr ?_⟩
  rw [hq]
  simp only [M.bind, h2 (fun _ => fault) ⟨fs, clock, out⟩ rfl hf]
  exact ⟨trivial, hc.set h1⟩

theorem runs_ok (hq : q.toM = M.bind m (fun b => (k b).toM)) (hc : AllCovered gs fs) (hf : fs p = some f)
    (h : Single p m f (.ok b) g') (hk : ∀ fs', AllCovered (gs.set p (some g')) fs' → Runs (k b) fs' rr gs') : Runs q fs rr gs' := by
  intro clock out
  obtain ⟨fault, f', h1, h2⟩ := h
  obtain ⟨σ, h3⟩ := hk _ (hc.set h1) (clock + 1) out
  refine ⟨first clock fault σ, ?_⟩
  rw [hq]
  simp only [M.bind, h2 (first clock fault σ) ⟨fs, clock, out⟩ (by simp [first]) hf]
  rw [toM_future (k b) _ (first clock fault σ) σ (fun i hi => by
    unfold first; rw [if_neg]; exact (show clock + 1 ≤ i from hi) |> fun h => by omega)]
  exact h3

theorem runs_ub (h : ∀ w : World, w.fs = fs → (q.toM calm w).1 = .error .ub) : Runs q fs rr gs' :=
  fun clock out => ⟨calm, .inl (h ⟨fs, clock, out⟩ rfl)⟩

end program

end NuDB
