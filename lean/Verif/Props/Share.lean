import Verif.Spec.Share
import Verif.Props.Concurrent
/-
C65: bytes do not change while they are being read.
-/
namespace NuDB

open Spec Conc

section
variable {c : Cfg} {a : CreateArgs} {lf : Nat} {short : Prop} {s : Store} {fs : Fs} {m : Map} {acts : List Act} {x : Sys}
  {tr : List Ev} {cf : Conf} {lo nx : Nat} {F : Prop} {t : Nat}

theorem reads_dat {B : Option (Nat × Bytes)} {D : Bytes} {p : Prog α} {res : Except Exc α} (h : Outcome F B D p res)
    (hr : res ≠ .error (.err .short_read)) {i : Nat} (hp : ReadsByte .dat i p) : i < D.length := by
  cases hp with
  | read h1 h2 =>
    rcases h with ⟨_, h⟩ | h
    · cases h
    · subst h
      unfold eval at hr
      split at hr
      · omega
      · exact absurd rfl hr

theorem reads_not_log {B : Option (Nat × Bytes)} {D : Bytes} {p : Prog α} {res : Except Exc α} (h : Outcome F B D p res)
    (hg : Good res) {i : Nat} (hp : ReadsByte .log i p) : False := by
  cases hp with
  | read h1 h2 =>
    rcases h with ⟨_, h⟩ | h
    · cases h
    · subst h
      exact absurd rfl hg.1

theorem good_short {res : Except Exc α} (hg : Good res) : res ≠ .error (.err .short_read) := hg.2

/-- Threads read what was in the data file when they looked into memory. -/
theorem reading_dat (h : Inv c cf m lo nx F x tr) {i : Nat} (hr : IsReading x t .dat i) :
    ∃ D f, x.fs .dat = some f ∧ D <+: f.cur ∧ i < D.length := by
  obtain ⟨D, recs, view, hcore, hth⟩ := h.core
  obtain ⟨f, hf, hD⟩ := hcore.ready.file
  refine ⟨D, f, hf, hD, ?_⟩
  have ht := hth t
  cases hr with
  | fetchC e hp =>
    rw [e] at ht
    obtain ⟨_, _, _, _, _, _, ho⟩ := ht
    exact reads_dat ho (good_short (good_resOf _)) hp
  | fetchK e hp =>
    rw [e] at ht
    obtain ⟨blk, h1, h2, _, _, _, _, _, ho⟩ := ht
    exact reads_dat ho (good_short (good_resOf _)) hp
  | insC e hp =>
    rw [e] at ht
    obtain ⟨_, _, _, ho⟩ := ht
    cases hp with
    | read a1 a2 =>
      rcases ho with ⟨_, h⟩ | h
      · cases h
      · change eval none D (Prog.bind _ _) = _ at h
        unfold Prog.bind eval at h
        split at h
        · omega
        · cases h
  | insS e hp =>
    rw [e] at ht
    obtain ⟨_, _, ho⟩ := ht
    exact reads_dat ho (by simp) hp
  | insK e hp =>
    rw [e] at ht
    obtain ⟨blk, h1, h2, _, _, ho⟩ := ht
    exact reads_dat ho (by simp) hp

theorem reading_log (h : Inv c cf m lo nx F x tr) {i : Nat} (hr : IsReading x t .log i) : False := by
  obtain ⟨D, recs, view, hcore, hth⟩ := h.core
  have ht := hth t
  cases hr with
  | fetchC e hp =>
    rw [e] at ht
    obtain ⟨_, _, _, _, _, _, ho⟩ := ht
    exact reads_not_log ho (good_resOf _) hp
  | fetchK e hp =>
    rw [e] at ht
    obtain ⟨blk, h1, h2, _, _, _, _, _, ho⟩ := ht
    exact reads_not_log ho (good_resOf _) hp
  | insC e hp =>
    rw [e] at ht
    obtain ⟨_, _, _, ho⟩ := ht
    cases hp with
    | read a1 a2 =>
      rcases ho with ⟨_, h⟩ | h
      · cases h
      · cases h
  | insS e hp =>
    rw [e] at ht
    obtain ⟨_, _, ho⟩ := ht
    exact reads_not_log ho (Good.ok _) hp
  | insK e hp =>
    rw [e] at ht
    obtain ⟨blk, h1, h2, _, _, ho⟩ := ht
    exact reads_not_log ho (Good.ok _) hp

/-- A flusher's program that does not end with undefined behaviour appends at the end. -/
theorem appends_end {T : Nat → Prop} {bs : Nat} {R : α → Prop} {p : Prog α} (hu : Uses (OpOk T bs) R p) {Q : α → Fs → Prop}
    {X : Exc → Fs → Prop} (hs : Ensures Q X p fs) (hX : ∀ fs, ¬ X .ub fs) {f : FileSt} (hf : fs .dat = some f) {i : Nat}
    (hp : ChangesByte .dat i p) : f.cur.length ≤ i := by
  cases hp with
  | write => cases hu with | write h _ => cases h.1
  | trunc => cases hu with | trunc h _ => cases h
  | append h1 h2 =>
    rename_i off b k
    by_cases ho : off = f.cur.length
    · omega
    · have h3 := hs.step .none trivial
      have : Prog.step .none (.append .dat off b k) fs = (.raise .ub, fs) := by
        simp only [Prog.step, Prog.after, fAppend, fileOp, hf]
        rw [if_neg ho]
      rw [this] at h3
      exact absurd (h3.raise trivial) (hX _)

theorem changing_dat (h : Inv c cf m lo nx F x tr) {i : Nat} (hr : IsChanging x .dat i) {f : FileSt} (hf : x.fs .dat = some f) :
    f.cur.length ≤ i := by
  obtain ⟨D, recs, view, hcore, hth⟩ := h.core
  have hfl := hcore.fl
  have hX : ∀ fs, ¬ XM c cf m (Two lo nx) tr .ub fs := by
    rintro fs ⟨_, h | h | h⟩ <;> cases h
  unfold FlOk at hfl
  cases hr with
  | prep e hp =>
    rw [e] at hfl
    rcases hfl.2 with ⟨_, h1⟩ | ⟨_, _, _, _, K, _, h1, _⟩
    · exact appends_end hfl.1 h1 hX hf hp
    · exact appends_end hfl.1 h1 hX hf hp
  | log e hp =>
    rw [e] at hfl
    obtain ⟨h1, _, _, _, h2, _⟩ := hfl
    exact appends_end h1 h2 hX hf hp
  | keys e hp =>
    rw [e] at hfl
    obtain ⟨h1, _, _, h2, _⟩ := hfl
    exact appends_end h1 h2 hX hf hp

theorem reads_key {p : Prog α} {i : Nat} (h : ReadsByte .key i p) : ∃ off n, ReadsKey p off n ∧ off ≤ i ∧ i < off + n := by
  cases h with
  | read h1 h2 => exact ⟨_, _, .read, h1, h2⟩

theorem changes_key {p : Prog α} {i : Nat} (h : ChangesByte .key i p) : ∃ off n, ChangesKey p off n ∧ off ≤ i ∧ i < off + n := by
  cases h with
  | write h1 h2 => exact ⟨_, _, .write, h1, h2⟩
  | append h1 h2 => exact ⟨_, _, .append, h1, h2⟩
  | trunc h1 => exact ⟨_, _, .trunc (off := 0) (n := i + 1), Nat.zero_le _, by omega⟩

theorem not_changing (hinv : Inv c cf m lo nx F x tr) {q : Path} {i : Nat} (h1 : IsReading x t q i) : ¬ IsChanging x q i := by
  intro h2
  cases q with
  | dat =>
    obtain ⟨D, f, e1, e2, e3⟩ := reading_dat hinv h1
    have := changing_dat hinv h2 e1
    have := e2.length_le
    omega
  | log =>
    exact reading_log hinv h1
  | key =>
    have e1 : ∃ off n, Reading x t off n ∧ off ≤ i ∧ i < off + n := by
      cases h1 with
      | fetchC e hp => obtain ⟨o, n, h, h'⟩ := reads_key hp; exact ⟨o, n, .fetchC e h, h'⟩
      | fetchK e hp => obtain ⟨o, n, h, h'⟩ := reads_key hp; exact ⟨o, n, .fetchK e h, h'⟩
      | insC e hp => obtain ⟨o, n, h, h'⟩ := reads_key hp; exact ⟨o, n, .insC e h, h'⟩
      | insS e hp => obtain ⟨o, n, h, h'⟩ := reads_key hp; exact ⟨o, n, .insS e h, h'⟩
      | insK e hp => obtain ⟨o, n, h, h'⟩ := reads_key hp; exact ⟨o, n, .insK e h, h'⟩
    have e2 : ∃ off n, Changing x off n ∧ off ≤ i ∧ i < off + n := by
      cases h2 with
      | prep e hp => obtain ⟨o, n, h, h'⟩ := changes_key hp; exact ⟨o, n, .prep e h, h'⟩
      | log e hp => obtain ⟨o, n, h, h'⟩ := changes_key hp; exact ⟨o, n, .log e h, h'⟩
      | keys e hp => obtain ⟨o, n, h, h'⟩ := changes_key hp; exact ⟨o, n, .keys e h, h'⟩
    obtain ⟨o, n, h, h'⟩ := e1
    obtain ⟨o', n', g, g'⟩ := e2
    obtain ⟨b, _, e1, e2, e3⟩ := reading_block hinv h
    obtain ⟨b', p, f1, f2, f3, f4⟩ := changing_block hinv g
    unfold GenOk at e3
    rw [f1] at e3
    have hne : b ≠ b' := by rintro rfl; exact f4 e3
    have := blk_disjoint (bs := cf.blockSize) hne
    omega

/-! bytes stay as they are -/

theorem put_other {A b : Bytes} {o i : Nat} (h : i < o ∨ o + b.length ≤ i) (hl : o ≤ A.length) : (put A o b)[i]? = A[i]? := by
  unfold put
  rcases h with h | h
  · rw [List.append_assoc, List.getElem?_append_left (by rw [List.length_take]; omega), List.getElem?_take_of_lt h]
  · rw [List.getElem?_append_right (by simp; omega), List.getElem?_drop]
    congr 1
    simp
    omega

theorem writeAt_other {A b : Bytes} {o i : Nat} {v : UInt8} (h : i < o ∨ o + b.length ≤ i) (hv : A[i]? = some v) :
    (writeAt A o b)[i]? = some v := by
  unfold writeAt
  split
  · exact hv
  · rw [put_other h (by simp; omega), List.getElem?_append_left (List.getElem?_eq_some_iff.1 hv).1]
    exact hv

theorem byteOf_set {q : Path} {i : Nat} {v : UInt8} {p : Path} {f g : FileSt} (hv : byteOf fs q i = some v) (hf : fs p = some f)
    (h : q = p → f.cur[i]? = some v → g.cur[i]? = some v) : byteOf (fs.set p (some g)) q i = some v := by
  by_cases e : q = p
  · subst e
    unfold byteOf Fs.set at *
    rw [hf] at hv
    rw [if_pos rfl]
    exact h rfl hv
  · unfold byteOf Fs.set at *
    rw [if_neg e]
    exact hv

theorem push_cur {f : FileSt} {o : POp} : (f.push o).cur = o.apply f.cur := by
  unfold FileSt.push FileSt.cur
  rw [List.foldl_append]
  rfl

theorem byteOf_fileOp {ok : Fs → Except Exc β × Fs} {part : Fs → Nat → Fs} {k : β → Prog α} {q : Path} {i : Nat} {v : UInt8}
    (h1 : byteOf (ok fs).2 q i = some v) (h2 : ∀ j, byteOf (part fs j) q i = some v) (f : Fault) :
    byteOf (Prog.after (fileOp ok part) k f fs).2 q i = some v := by
  unfold Prog.after fileOp
  cases f with
  | none =>
    dsimp only
    rcases hr : ok fs with ⟨a | a, fs'⟩
    · rw [hr] at h1; exact h1
    · rw [hr] at h1; exact h1
  | fail j => exact h2 j
  | crash j => exact h2 j

/-- Operations change the bytes they are meant to. -/
theorem byteOf_step {p : Prog α} {q : Path} {i : Nat} {v : UInt8} (h : ¬ ChangesByte q i p) (hv : byteOf fs q i = some v) (f : Fault) :
    byteOf (p.step f fs).2 q i = some v := by
  cases p with
  | ret a => exact hv
  | raise a => exact hv
  | size q' k =>
    refine byteOf_fileOp ?_ (fun _ => hv) f
    split <;> exact hv
  | read q' o n k =>
    refine byteOf_fileOp ?_ (fun _ => hv) f
    split
    · split <;> exact hv
    · exact hv
  | sync q' k =>
    refine byteOf_fileOp ?_ (fun _ => hv) f
    split
    · rename_i hf
      exact byteOf_set hv hf fun _ h => h
    · exact hv
  | trunc q' n k =>
    refine byteOf_fileOp ?_ (fun _ => hv) f
    split
    · rename_i hf
      refine byteOf_set hv hf fun e hb => ?_
      subst e
      have hin : i < n := Nat.lt_of_not_le fun h' => h (.trunc h')
      rw [push_cur]
      show (truncAt _ _)[i]? = _
      unfold truncAt
      have := (List.getElem?_eq_some_iff.1 hb).1
      rw [List.getElem?_append_left (by rw [List.length_take]; omega), List.getElem?_take_of_lt hin]
      exact hb
    · exact hv
  | write q' o b k =>
    have main : ∀ (f : FileSt) j, fs q' = some f → byteOf (fs.set q' (some (f.push (.write o (b.take j))))) q i = some v := by
      intro f j hf
      refine byteOf_set hv hf fun e hb => ?_
      subst e
      rw [push_cur]
      refine writeAt_other ?_ hb
      have h3 : ¬ (o ≤ i ∧ i < o + b.length) := fun h' => h (.write h'.1 h'.2)
      rw [List.length_take]
      omega
    refine byteOf_fileOp ?_ ?_ f
    · split
      · rename_i f hf
        have := main f b.length hf
        rw [List.take_length] at this
        exact this
      · exact hv
    · intro j
      split
      · rename_i f hf; exact main f j hf
      · exact hv
  | append q' o b k =>
    have main : ∀ (f : FileSt) j, fs q' = some f → byteOf (fs.set q' (some (f.push (.write o (b.take j))))) q i = some v := by
      intro f j hf
      refine byteOf_set hv hf fun e hb => ?_
      subst e
      rw [push_cur]
      refine writeAt_other ?_ hb
      have h3 : ¬ (o ≤ i ∧ i < o + b.length) := fun h' => h (.append h'.1 h'.2)
      rw [List.length_take]
      omega
    refine byteOf_fileOp ?_ ?_ f
    · split
      · rename_i f hf
        split
        · have := main f b.length hf
          rw [List.take_length] at this
          exact this
        · exact hv
      · exact hv
    · intro j
      split
      · rename_i f hf
        split
        · exact main f j hf
        · exact hv
      · exact hv

theorem byteOf_seen {q : Path} {i : Nat} {v : UInt8} (h : ¬ IsChanging x q i) (hv : byteOf x.fs q i = some v) :
    byteOf x.seen q i = some v := by
  unfold Sys.seen
  split
  · exact hv
  · rename_i e; exact byteOf_step (fun h' => h (.prep e h')) hv _
  · rename_i e; exact byteOf_step (fun h' => h (.log e h')) hv _
  · rename_i e; exact byteOf_step (fun h' => h (.keys e h')) hv _

theorem flusher_byte {y : Sys} {f : Fault} {q : Path} {i : Nat} {v : UInt8} (h : ¬ IsChanging x q i) (hv : byteOf x.fs q i = some v)
    (hs : flusherStep c x f = some y) : byteOf y.fs q i = some v ∧ y.pc = x.pc := by
  unfold flusherStep at hs
  split at hs
  · cases hs
  · rename_i p e
    split at hs
    · split at hs
      · cases hs; exact ⟨hv, rfl⟩
      · cases hs
    · cases hs; exact ⟨hv, rfl⟩
    · cases hs
    · cases hs; exact ⟨byteOf_step (fun h' => h (.prep e h')) hv _, rfl⟩
  · rename_i p e
    split at hs
    · split at hs
      · cases hs; exact ⟨hv, rfl⟩
      · cases hs
    · cases hs; exact ⟨hv, rfl⟩
    · cases hs
    · cases hs; exact ⟨byteOf_step (fun h' => h (.log e h')) hv _, rfl⟩
  · rename_i p e
    split at hs
    · split at hs
      · cases hs; exact ⟨hv, rfl⟩
      · cases hs
    · cases hs; exact ⟨hv, rfl⟩
    · cases hs
    · cases hs; exact ⟨byteOf_step (fun h' => h (.keys e h')) hv _, rfl⟩

theorem reading_present (h : Inv c cf m lo nx F x tr) {q : Path} {i : Nat} (hr : IsReading x t q i) :
    ∃ v, byteOf x.fs q i = some v := by
  cases q with
  | log => exact (reading_log h hr).elim
  | dat =>
    obtain ⟨D, f, e1, e2, e3⟩ := reading_dat h hr
    have := e2.length_le
    exact ⟨_, by unfold byteOf; rw [e1]; exact List.getElem?_eq_getElem (by omega)⟩
  | key =>
    obtain ⟨D, recs, view, hcore, hth⟩ := h.core
    have ht := hth t
    have main : ∀ {α : Type} {b : Nat} {blk : Bytes} {p : Prog α} {res : Except Exc α}, KeyBlk cf.blockSize b blk x.fs →
        Outcome F (blkRef cf b blk) D p res → Good res → ReadsByte .key i p → ∃ v, byteOf x.fs .key i = some v := by
      intro α b blk p res h1 ho hg hp
      obtain ⟨o, n, hp, h2, h3⟩ := reads_key hp
      obtain ⟨_, _, hB, e1, e2⟩ := reads_in ho hg hp
      cases hB
      rw [h1.len] at e2
      obtain ⟨f, hf, hl, _⟩ := h1
      exact ⟨_, by unfold byteOf; rw [hf]; exact List.getElem?_eq_getElem (by omega)⟩
    cases hr with
    | fetchC e hp =>
      rw [e] at ht
      obtain ⟨_, _, _, _, _, _, ho⟩ := ht
      obtain ⟨_, _, hp, _⟩ := reads_key hp
      obtain ⟨_, _, hB, _⟩ := reads_in ho (good_resOf _) hp
      cases hB
    | fetchK e hp =>
      rw [e] at ht
      obtain ⟨blk, h1, h2, _, _, _, _, _, ho⟩ := ht
      exact main h1 ho (good_resOf _) hp
    | insC e hp =>
      rw [e] at ht
      obtain ⟨_, _, _, ho⟩ := ht
      cases hp with
      | read a1 a2 =>
        rcases ho with ⟨_, h⟩ | h
        · cases h
        · cases h
    | insS e hp =>
      rw [e] at ht
      obtain ⟨_, _, ho⟩ := ht
      obtain ⟨_, _, hp, _⟩ := reads_key hp
      obtain ⟨_, _, hB, _⟩ := reads_in ho (Good.ok _) hp
      cases hB
    | insK e hp =>
      rw [e] at ht
      obtain ⟨blk, h1, h2, _, _, ho⟩ := ht
      exact main h1 ho (Good.ok _) hp

theorem Spec.IsReading.out {q : Path} {i : Nat} (h : IsReading x t q i) : x.pc t ≠ .out := by
  cases h with
  | fetchC e _ => rw [e]; simp
  | fetchK e _ => rw [e]; simp
  | insC e _ => rw [e]; simp
  | insS e _ => rw [e]; simp
  | insK e _ => rw [e]; simp

theorem Spec.IsReading.same {y : Sys} {q : Path} {i : Nat} (h : IsReading x t q i) (e : y.pc t = x.pc t) : IsReading y t q i := by
  cases h with
  | fetchC e' h => exact .fetchC (e.trans e') h
  | fetchK e' h => exact .fetchK (e.trans e') h
  | insC e' h => exact .insC (e.trans e') h
  | insS e' h => exact .insS (e.trans e') h
  | insK e' h => exact .insK (e.trans e') h

/-- Threads change neither files nor the places of other threads. -/
theorem thread_same {y : Sys} {u : Nat} {f : Fault} {es : List Ev} (hs : threadStep c x u f = some (y, es)) (hu : u ≠ t) :
    y.fs = x.fs ∧ y.pc t = x.pc t := by
  have out : ∀ {z : Sys} {q : Pc}, y = z.goto u q → z.pc = x.pc → z.fs = x.fs → y.fs = x.fs ∧ y.pc t = x.pc t := by
    intro z q e hz hf
    subst e
    exact ⟨hf, by rw [← hz]; exact if_neg (Ne.symm hu)⟩
  have rd : ∀ {α : Type} {p : Prog α} {q : Prog α → Pc},
      (readStep f x.seen p).map (fun r => (x.goto u (q r), ([] : List Ev))) = some (y, es) → y.fs = x.fs ∧ y.pc t = x.pc t := by
    intro α p q h
    obtain ⟨r, _, e⟩ := Option.map_eq_some_iff.mp h
    cases e
    exact out rfl rfl rfl
  unfold threadStep at hs
  cases hpc : x.pc u with
  | out => rw [hpc] at hs; cases hs
  | ret r => rw [hpc] at hs; cases hs; exact out rfl rfl rfl
  | fetch0 k =>
    rw [hpc] at hs
    simp only at hs
    split at hs <;> (cases hs; exact out rfl rfl rfl)
  | fetch1 k =>
    rw [hpc] at hs
    obtain ⟨z, hz, e⟩ := Option.map_eq_some_iff.mp hs
    cases e
    unfold fetchLocked at hz
    split at hz
    · cases hz; exact out rfl rfl rfl
    · split at hz
      · cases hz; exact out rfl rfl rfl
      · simp only at hz
        split at hz
        · cases hz
        · split at hz
          · cases hz; exact out (z := { x with shared := u :: x.shared }) rfl rfl rfl
          · cases hz; exact out (z := { x with g := x.g.lock }) rfl rfl rfl
  | fetchC k n blob p =>
    rw [hpc] at hs
    cases p with
    | ret v => cases hs; exact out (z := x.unshare u) rfl rfl rfl
    | raise ex =>
      cases ex with
      | err e => cases hs; exact out (z := x.unshare u) rfl rfl rfl
      | _ => cases hs
    | read => exact rd (q := .fetchC k n blob) hs
    | _ => cases hs
  | fetchK k n d p =>
    rw [hpc] at hs
    cases p with
    | ret v => cases hs; exact out (z := x.leave d) rfl rfl rfl
    | raise ex =>
      cases ex with
      | err e => cases hs; exact out (z := x.leave d) rfl rfl rfl
      | _ => cases hs
    | read => exact rd (q := .fetchK k n d) hs
    | _ => cases hs
  | ins0 k v =>
    rw [hpc] at hs
    simp only at hs
    split at hs <;> (cases hs; exact out rfl rfl rfl)
  | ins1 k v =>
    rw [hpc] at hs
    simp only at hs
    split at hs
    · cases hs
    · cases hs; exact out (z := { x with owner := some u }) rfl rfl rfl
  | ins2 k v =>
    rw [hpc] at hs
    obtain ⟨z, hz, e⟩ := Option.map_eq_some_iff.mp hs
    cases e
    unfold insertLocked at hz
    split at hz
    · cases hz; exact out (z := x.release) rfl rfl rfl
    · simp only at hz
      split at hz
      · cases hz
      · split at hz
        · cases hz; exact out (z := { x with shared := u :: x.shared }) rfl rfl rfl
        · cases hz; exact out (z := { x with g := x.g.lock }) rfl rfl rfl
  | insC k v n blob p rest =>
    rw [hpc] at hs
    cases p with
    | ret b =>
      cases b with
      | true => cases hs; exact out (z := (x.unshare u).release) rfl rfl rfl
      | false => cases hs; exact out (z := x.unshare u) rfl rfl rfl
    | raise ex =>
      cases ex with
      | err e => cases hs; exact out (z := (x.unshare u).release) rfl rfl rfl
      | _ => cases hs
    | read => exact rd (q := fun p => .insC k v n blob p rest) hs
    | _ => cases hs
  | insS k v p =>
    rw [hpc] at hs
    cases p with
    | ret b =>
      cases b with
      | true => cases hs; exact out (z := x.release) rfl rfl rfl
      | false => cases hs; exact out rfl rfl rfl
    | raise ex =>
      cases ex with
      | err e => cases hs; exact out (z := x.release) rfl rfl rfl
      | _ => cases hs
    | read => exact rd (q := .insS k v) hs
    | _ => cases hs
  | insK k v n d p =>
    rw [hpc] at hs
    cases p with
    | ret b =>
      cases b with
      | true => cases hs; exact out (z := (x.leave d).release) rfl rfl rfl
      | false => cases hs; exact out (z := x.leave d) rfl rfl rfl
    | raise ex =>
      cases ex with
      | err e => cases hs; exact out (z := (x.leave d).release) rfl rfl rfl
      | _ => cases hs
    | read => exact rd (q := .insK k v n d) hs
    | _ => cases hs
  | ins3 k v =>
    rw [hpc] at hs
    simp only at hs
    split at hs
    · split at hs
      · cases hs
      · rename_i p1 _
        cases hs
        exact out (z := Sys.release { x with s := { x.s with p1 := p1 } }) rfl rfl rfl
    · cases hs

theorem step_same {y : Sys} {act : Act} {es : List Ev} {q : Path} {i : Nat} {v : UInt8} (h : IsReading x t q i)
    (hc : ¬ IsChanging x q i) (hv : byteOf x.fs q i = some v) (ha : ∀ f, act ≠ .go t f) (hs : step c x act = some (y, es)) :
    byteOf y.fs q i = some v ∧ y.pc t = x.pc t := by
  cases act with
  | call u op =>
    have hu : u ≠ t := by
      rintro rfl
      simp only [step] at hs
      split at hs
      · rename_i e; exact h.out e
      · cases hs
    simp only [step] at hs
    split at hs
    · split at hs
      · split at hs <;> (cases hs; exact ⟨hv, if_neg (Ne.symm hu)⟩)
      · cases hs
    · cases hs
  | go u f =>
    have hu : u ≠ t := by rintro rfl; exact ha f rfl
    simp only [step] at hs
    split at hs
    · obtain ⟨e1, e2⟩ := thread_same hs hu
      rw [e1]
      exact ⟨hv, e2⟩
    · cases hs
  | flush =>
    obtain ⟨z, hz, e⟩ := Option.map_eq_some_iff.1 hs
    cases e
    unfold flushStart at hz
    split at hz
    · split at hz
      · split at hz <;> (cases hz; exact ⟨hv, rfl⟩)
      · cases hz
    · cases hz
  | goF f =>
    simp only [step] at hs
    split at hs
    · obtain ⟨z, hz, e⟩ := Option.map_eq_some_iff.1 hs
      cases e
      obtain ⟨e1, e2⟩ := flusher_byte hc hv hz
      exact ⟨e1, by rw [e2]⟩
    · cases hs
  | part j =>
    simp only [step] at hs
    split at hs
    · cases hs; exact ⟨hv, rfl⟩
    · cases hs

theorem stable {y : Sys} {q : Path} {i : Nat} {v : UInt8} : ∀ {acts : List Act} {es tr : List Ev} {lo nx : Nat} {F : Prop} {x : Sys},
    Inv c cf m lo nx F x tr → IsReading x t q i → byteOf x.fs q i = some v → (∀ f, .go t f ∉ acts) →
    run c acts x = some (y, es) → IsReading y t q i ∧ byteOf y.seen q i = some v := by
  intro acts
  induction acts with
  | nil =>
    intro es tr lo nx F x hi h hv _ hr
    cases hr
    exact ⟨h, byteOf_seen (not_changing hi h) hv⟩
  | cons act acts ih =>
    intro es tr lo nx F x hi h hv hn hr
    obtain ⟨z, e1, e2, h1, h2, -⟩ := run_cons hr
    obtain ⟨lo', nx', hi', -⟩ := inv_step hi h1
    obtain ⟨hz, ht⟩ := step_same h (not_changing hi h) hv (fun f e => hn f (by rw [e]; simp)) h1
    exact ih hi' (h.same ht) hz (fun f hm => hn f (by simp [hm])) h2

/-- **C65**: a byte of a file that a thread is reading is there and is not being changed. -/
theorem C65 (hc : Creatable a lf) (hs : Started c a short s fs m) (hr : run c acts (Sys.init s fs) = some (x, tr)) {q : Path}
    {i : Nat} (h : IsReading x t q i) : byteOf x.seen q i ≠ none ∧ ¬ IsChanging x q i := by
  obtain ⟨lo, nx, hinv⟩ := inv_reached hc hs hr
  obtain ⟨v, hv⟩ := reading_present hinv h
  have h2 := not_changing hinv h
  exact ⟨by rw [byteOf_seen h2 hv]; simp, h2⟩

/-- **C65**: however long a thread takes to read, and whatever other threads and the flusher do meanwhile, each of the bytes
is the same all the time. -/
theorem C65_stable (hc : Creatable a lf) (hs : Started c a short s fs m) (hr : run c acts (Sys.init s fs) = some (x, tr)) {q : Path}
    {i : Nat} (h : IsReading x t q i) {acts₂ : List Act} {y : Sys} {tr₂ : List Ev} (h2 : run c acts₂ x = some (y, tr₂))
    (hn : ∀ f, Act.go t f ∉ acts₂) : byteOf y.seen q i = byteOf x.seen q i := by
  obtain ⟨lo, nx, hinv⟩ := inv_reached hc hs hr
  obtain ⟨v, hv⟩ := reading_present hinv h
  rw [byteOf_seen (not_changing hinv h) hv]
  exact (stable hinv h hv hn h2).2

end

/- The hypotheses of C65 and C65_stable: thread 2 reads bucket 1 while the flusher writes bucket 0; then the flusher goes on. -/
example : ∃ s fs m acts x tr y tr₂, Started sharedCfg demoArgs False s fs m ∧ run sharedCfg acts (Sys.init s fs) = some (x, tr) ∧
    IsReading x 2 .key 230 ∧ IsChanging x .key 110 ∧ run sharedCfg [.part 3, .goF .none] x = some (y, tr₂) := by
  obtain ⟨s, fs, m, h, ht⟩ := demo_shared (P := fun x0 => match run sharedCfg (actsA ++ (actsB ++ actsC)) x0 with
    | some (x, _) => (match x.pc 2 with | .fetchK _ _ 1 (.read .key 208 98 _) => true | _ => false) &&
        (match x.fl with | .keys (.write .key 104 b _) => 6 < b.length | _ => false) &&
        (run sharedCfg [.part 3, .goF .none] x).isSome
    | none => false) (by decide +kernel)
  split at ht
  · rename_i x tr hr
    simp only [Bool.and_eq_true] at ht
    obtain ⟨⟨h1, h2⟩, h3⟩ := ht
    obtain ⟨⟨y, tr₂⟩, hy⟩ := Option.isSome_iff_exists.1 h3
    refine ⟨s, fs, m, _, x, tr, y, tr₂, h, hr, ?_, ?_, hy⟩
    · split at h1
      · rename_i e; exact .fetchK e (.read (by decide) (by decide))
      · cases h1
    · split at h2
      · rename_i b k e
        have : 6 < b.length := by simpa using h2
        exact .keys e (.write (by decide) (by omega))
      · cases h2
  · cases ht

end NuDB
