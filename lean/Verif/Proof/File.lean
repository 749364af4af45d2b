import Verif.Proof.Hoare
import Verif.Proof.Bytes
import Verif.Spec.Crash
/- Versions and crash images of files; triples for the file operations. -/
namespace NuDB

open Spec

section versions

@[simp] theorem cur_clean (b : Bytes) : (FileSt.clean b).cur = b := rfl

@[simp] theorem cur_synced (f : FileSt) : f.synced.cur = f.cur := rfl

theorem cur_push (f : FileSt) (op : POp) : (f.push op).cur = POp.apply f.cur op := by
  simp [FileSt.push, FileSt.cur]

theorem synced_eq (f : FileSt) : f.synced = FileSt.clean f.cur := rfl

theorem version_base (f : FileSt) : Version f f.base := ⟨0, rfl⟩

theorem version_cur (f : FileSt) : Version f f.cur := ⟨f.pend.length, by simp [FileSt.cur]⟩

theorem version_clean {b v : Bytes} : Version (FileSt.clean b) v ↔ v = b := by
  constructor
  · rintro ⟨k, rfl⟩; simp [FileSt.clean]
  · rintro rfl; exact version_base _

theorem version_push {f : FileSt} {op : POp} {v : Bytes} :
    Version (f.push op) v ↔ Version f v ∨ v = POp.apply f.cur op := by
  constructor
  · rintro ⟨k, rfl⟩
    by_cases h : k ≤ f.pend.length
    · left
      refine ⟨k, ?_⟩
      simp only [FileSt.push]
      rw [List.take_append_of_le_length h]
    · right
      simp only [FileSt.push, FileSt.cur]
      rw [List.take_of_length_le (by simp; omega)]
      simp
  · rintro (⟨k, rfl⟩ | rfl)
    · refine ⟨min k f.pend.length, ?_⟩
      simp only [FileSt.push]
      rw [List.take_append_of_le_length (by omega)]
      congr 1
      by_cases h : k ≤ f.pend.length
      · rw [Nat.min_eq_left h]
      · rw [List.take_of_length_le (by omega), List.take_of_length_le (by omega)]
    · rw [← cur_push]; exact version_cur _

theorem stable_clean (b : Bytes) : Stable (FileSt.clean b) b := fun _ h => version_clean.mp h

theorem Spec.Stable.cur {f : FileSt} {v : Bytes} (h : Stable f v) : f.cur = v := h _ (version_cur f)

theorem Spec.Stable.push {f : FileSt} {v : Bytes} {op : POp} (h : Stable f v)
    (hop : POp.apply v op = v) : Stable (f.push op) v := by
  intro u hu
  rcases version_push.mp hu with hu | rfl
  · exact h u hu
  · rw [h.cur, hop]

theorem Spec.Stable.synced {f : FileSt} {v : Bytes} (h : Stable f v) : f.synced = FileSt.clean v := by
  rw [synced_eq, h.cur]

theorem unordered_stable {f : FileSt} {v img : Bytes} (h : Stable f v) (hi : Unordered f img) :
    img = v := by
  obtain ⟨u1, hu1, h1⟩ := hi.lower
  obtain ⟨u2, hu2, h2⟩ := hi.upper
  rw [h u1 hu1] at h1
  rw [h u2 hu2] at h2
  apply List.ext_getElem (by omega)
  intro i a b
  rcases hi.bytes i a with ⟨u, hu, e⟩ | ⟨u, hu, e, _⟩
  · rw [h u hu, List.getElem?_eq_getElem b] at e
    exact (Option.some.inj e).symm
  · rw [h u hu] at e; omega

theorem ordered_cur (f : FileSt) : Ordered f f.cur := .inl (version_cur f)

theorem ordered_clean {b c : Bytes} : Ordered (FileSt.clean b) c ↔ c = b := by
  constructor
  · rintro (h | ⟨k, off, bs, j, h, _⟩)
    · exact version_clean.mp h
    · simp [FileSt.clean] at h
  · rintro rfl; exact .inl (version_base _)

theorem ordered_push_write {f : FileSt} {off : Nat} {bs c : Bytes}
    (h : Ordered (f.push (.write off bs)) c) :
    Ordered f c ∨ ∃ j, c = POp.apply f.cur (.write off (bs.take j)) := by
  rcases h with h | ⟨k, off', bs', j, h, hc⟩
  · rcases version_push.mp h with h | rfl
    · exact .inl (.inl h)
    · exact .inr ⟨bs.length, by simp⟩
  · by_cases hk : k < f.pend.length
    · left; right
      refine ⟨k, off', bs', j, ?_, ?_⟩
      · simpa [FileSt.push, List.getElem?_append_left hk] using h
      · rw [hc]; simp only [FileSt.push]
        rw [List.take_append_of_le_length (by omega)]
    · have hk2 : k = f.pend.length := by
        by_cases h2 : k = f.pend.length
        · exact h2
        · simp only [FileSt.push] at h
          rw [List.getElem?_eq_none (by simp; omega)] at h
          cases h
      subst hk2
      simp [FileSt.push] at h
      obtain ⟨rfl, rfl⟩ := h
      right
      refine ⟨j, ?_⟩
      rw [hc]
      simp [FileSt.push, FileSt.cur]

theorem ordered_push_trunc {f : FileSt} {n : Nat} {c : Bytes}
    (h : Ordered (f.push (.trunc n)) c) : Ordered f c ∨ c = truncAt f.cur n := by
  rcases h with h | ⟨k, off', bs', j, h, hc⟩
  · rcases version_push.mp h with h | rfl
    · exact .inl (.inl h)
    · exact .inr rfl
  · by_cases hk : k < f.pend.length
    · left; right
      refine ⟨k, off', bs', j, ?_, ?_⟩
      · simpa [FileSt.push, List.getElem?_append_left hk] using h
      · rw [hc]; simp only [FileSt.push]
        rw [List.take_append_of_le_length (by omega)]
    · have hk2 : k = f.pend.length := by
        by_cases h2 : k = f.pend.length
        · exact h2
        · simp only [FileSt.push] at h
          rw [List.getElem?_eq_none (by simp; omega)] at h
          cases h
      subst hk2
      simp [FileSt.push] at h

end versions

section writes

theorem writeAt_end (f bs : Bytes) : writeAt f f.length bs = f ++ bs := by
  unfold writeAt
  split
  · rename_i h; simp [h]
  · simp [put_end]

@[simp] theorem writeAt_nil (f : Bytes) (o : Nat) : writeAt f o [] = f := by simp [writeAt]

theorem writeAt_inside {f bs : Bytes} {o : Nat} (h : o + bs.length ≤ f.length) :
    writeAt f o bs = put f o bs := by
  unfold writeAt
  split
  · rename_i h2; subst h2; simp [put]
  · rw [show o - f.length = 0 by omega]; simp

theorem writeAt_length {f bs : Bytes} {o : Nat} (h : bs ≠ []) :
    (writeAt f o bs).length = max f.length (o + bs.length) := by
  unfold writeAt
  rw [if_neg h]
  simp only [put, List.length_append, List.length_take, List.length_drop, zeros_length]
  omega

theorem truncAt_prefix {d t : Bytes} : truncAt (d ++ t) d.length = d := by
  simp [truncAt]

theorem truncAt_self (d : Bytes) : truncAt d d.length = d := by simp [truncAt]

theorem truncAt_zero (d : Bytes) : truncAt d 0 = [] := by simp [truncAt]

end writes

@[simp] theorem Fs.set_same (fs : Fs) (p : Path) (f : Option FileSt) : fs.set p f p = f := by
  simp [Fs.set]

theorem Fs.set_other (fs : Fs) {p q : Path} (f : Option FileSt) (h : q ≠ p) : fs.set p f q = fs q := by
  simp [Fs.set, h]

@[simp] theorem Fs.set_dat_key (fs : Fs) (f) : fs.set .dat f .key = fs .key := rfl
@[simp] theorem Fs.set_dat_log (fs : Fs) (f) : fs.set .dat f .log = fs .log := rfl
@[simp] theorem Fs.set_key_dat (fs : Fs) (f) : fs.set .key f .dat = fs .dat := rfl
@[simp] theorem Fs.set_key_log (fs : Fs) (f) : fs.set .key f .log = fs .log := rfl
@[simp] theorem Fs.set_log_dat (fs : Fs) (f) : fs.set .log f .dat = fs .dat := rfl
@[simp] theorem Fs.set_log_key (fs : Fs) (f) : fs.set .log f .key = fs .key := rfl

/-- The world after a file operation. -/
def World.tick (w : World) (fs : Fs) : World := ⟨fs, w.clock + 1, w.out⟩

@[simp] theorem tick_fs (w : World) (fs : Fs) : (w.tick fs).fs = fs := rfl
@[simp] theorem tick_out (w : World) (fs : Fs) : (w.tick fs).out = w.out := rfl

/-- The two ways a disturbed file operation ends. -/
def IsFault (x : Exc) : Prop := x = .crash ∨ x = .err .io

section ops
variable {σ : Schedule} {w : World} {X : Exc → World → Prop}

theorem wp_fOpen {p : Path} {f : FileSt} {Q : Unit → World → Prop} (h : w.fs p = some f)
    (hQ : Q () (w.tick w.fs)) (hX : ∀ x, IsFault x → Faulty σ → X x (w.tick w.fs)) :
    wp σ (fOpen p) Q X w := by
  unfold fOpen
  apply wp_fileOp
  · simp only [h]; exact hQ
  · intro k hf; exact hX _ (.inr rfl) hf
  · intro k hf; exact hX _ (.inl rfl) hf

theorem wp_fOpen_none {p : Path} {Q : Unit → World → Prop} (h : w.fs p = none)
    (hQ : X (.err .no_such_file) (w.tick w.fs))
    (hX : ∀ x, IsFault x → Faulty σ → X x (w.tick w.fs)) :
    wp σ (fOpen p) Q X w := by
  unfold fOpen
  apply wp_fileOp
  · simp only [h]; exact hQ
  · intro k hf; exact hX _ (.inr rfl) hf
  · intro k hf; exact hX _ (.inl rfl) hf

theorem wp_fCreate {p : Path} {Q : Unit → World → Prop} (h : w.fs p = none)
    (hQ : Q () (w.tick (w.fs.set p (some (FileSt.clean [])))))
    (hX : ∀ x, IsFault x → Faulty σ → X x (w.tick w.fs) ∧
      X x (w.tick (w.fs.set p (some (FileSt.clean []))))) :
    wp σ (fCreate p) Q X w := by
  unfold fCreate
  apply wp_fileOp
  · simp only [h]; exact hQ
  · intro k hf
    split
    · exact (hX _ (.inr rfl) hf).2
    · exact (hX _ (.inr rfl) hf).1
  · intro k hf
    split
    · exact (hX _ (.inl rfl) hf).2
    · exact (hX _ (.inl rfl) hf).1

theorem wp_fCreate_some {p : Path} {f : FileSt} {Q : Unit → World → Prop} (h : w.fs p = some f)
    (hQ : X (.err .file_exists) (w.tick w.fs))
    (hX : ∀ x, IsFault x → Faulty σ → X x (w.tick w.fs)) :
    wp σ (fCreate p) Q X w := by
  unfold fCreate
  apply wp_fileOp
  · simp only [h]; exact hQ
  · intro k hf; simp only [h, reduceCtorEq, and_false, if_false]; exact hX _ (.inr rfl) hf
  · intro k hf; simp only [h, reduceCtorEq, and_false, if_false]; exact hX _ (.inl rfl) hf

theorem wp_fErase {p : Path} {f : FileSt} {Q : Unit → World → Prop} (h : w.fs p = some f)
    (hQ : Q () (w.tick (w.fs.set p none)))
    (hX : ∀ x, IsFault x → Faulty σ → X x (w.tick w.fs)) :
    wp σ (fErase p) Q X w := by
  unfold fErase
  apply wp_fileOp
  · simp only [h]; exact hQ
  · intro k hf; exact hX _ (.inr rfl) hf
  · intro k hf; exact hX _ (.inl rfl) hf

theorem wp_fErase_none {p : Path} {Q : Unit → World → Prop} (h : w.fs p = none)
    (hQ : X (.err .no_such_file) (w.tick w.fs))
    (hX : ∀ x, IsFault x → Faulty σ → X x (w.tick w.fs)) :
    wp σ (fErase p) Q X w := by
  unfold fErase
  apply wp_fileOp
  · simp only [h]; exact hQ
  · intro k hf; exact hX _ (.inr rfl) hf
  · intro k hf; exact hX _ (.inl rfl) hf

theorem wp_fSize {p : Path} {f : FileSt} {Q : Nat → World → Prop} (h : w.fs p = some f)
    (hQ : Q f.cur.length (w.tick w.fs)) (hX : ∀ x, IsFault x → Faulty σ → X x (w.tick w.fs)) :
    wp σ (fSize p) Q X w := by
  unfold fSize
  apply wp_fileOp
  · simp only [h]; exact hQ
  · intro k hf; exact hX _ (.inr rfl) hf
  · intro k hf; exact hX _ (.inl rfl) hf

theorem wp_fRead {p : Path} {f : FileSt} {o n : Nat} {Q : Bytes → World → Prop}
    (h : w.fs p = some f) (hl : o + n ≤ f.cur.length)
    (hQ : Q (slice f.cur o n) (w.tick w.fs))
    (hX : ∀ x, IsFault x → Faulty σ → X x (w.tick w.fs)) :
    wp σ (fRead p o n) Q X w := by
  unfold fRead
  apply wp_fileOp
  · simp only [h, hl, or_true, if_true]; exact hQ
  · intro k hf; exact hX _ (.inr rfl) hf
  · intro k hf; exact hX _ (.inl rfl) hf

theorem wp_fRead_short {p : Path} {f : FileSt} {o n : Nat} {Q : Bytes → World → Prop}
    (h : w.fs p = some f) (hn : n ≠ 0) (hl : f.cur.length < o + n)
    (hQ : X (.err .short_read) (w.tick w.fs))
    (hX : ∀ x, IsFault x → Faulty σ → X x (w.tick w.fs)) :
    wp σ (fRead p o n) Q X w := by
  unfold fRead
  apply wp_fileOp
  · simp only [h, hn, false_or]
    rw [if_neg (by omega)]; exact hQ
  · intro k hf; exact hX _ (.inr rfl) hf
  · intro k hf; exact hX _ (.inl rfl) hf

theorem wp_fWrite {p : Path} {f : FileSt} {o : Nat} {bs : Bytes} {Q : Unit → World → Prop}
    (h : w.fs p = some f)
    (hQ : Q () (w.tick (w.fs.set p (some (f.push (.write o bs))))))
    (hX : ∀ x k, IsFault x → Faulty σ →
      X x (w.tick (w.fs.set p (some (f.push (.write o (bs.take k))))))) :
    wp σ (fWrite p o bs) Q X w := by
  unfold fWrite
  apply wp_fileOp
  · simp only [h]; exact hQ
  · intro k hf; simp only [h]; exact hX _ k (.inr rfl) hf
  · intro k hf; simp only [h]; exact hX _ k (.inl rfl) hf

theorem wp_fAppend {p : Path} {f : FileSt} {o : Nat} {bs : Bytes} {Q : Unit → World → Prop}
    (h : w.fs p = some f) (ho : o = f.cur.length)
    (hQ : Q () (w.tick (w.fs.set p (some (f.push (.write o bs))))))
    (hX : ∀ x k, IsFault x → Faulty σ →
      X x (w.tick (w.fs.set p (some (f.push (.write o (bs.take k))))))) :
    wp σ (fAppend p o bs) Q X w := by
  unfold fAppend
  apply wp_fileOp
  · simp only [h, ho, if_true]; rw [← ho]; exact hQ
  · intro k hf; simp only [h, ho, if_true]; rw [← ho]; exact hX _ k (.inr rfl) hf
  · intro k hf; simp only [h, ho, if_true]; rw [← ho]; exact hX _ k (.inl rfl) hf

theorem wp_fSync {p : Path} {f : FileSt} {Q : Unit → World → Prop} (h : w.fs p = some f)
    (hQ : Q () (w.tick (w.fs.set p (some f.synced))))
    (hX : ∀ x, IsFault x → Faulty σ → X x (w.tick w.fs)) :
    wp σ (fSync p) Q X w := by
  unfold fSync
  apply wp_fileOp
  · simp only [h]; exact hQ
  · intro k hf; exact hX _ (.inr rfl) hf
  · intro k hf; exact hX _ (.inl rfl) hf

theorem wp_fTrunc {p : Path} {f : FileSt} {n : Nat} {Q : Unit → World → Prop}
    (h : w.fs p = some f)
    (hQ : Q () (w.tick (w.fs.set p (some (f.push (.trunc n))))))
    (hX : ∀ x, IsFault x → Faulty σ → X x (w.tick w.fs)) :
    wp σ (fTrunc p n) Q X w := by
  unfold fTrunc
  apply wp_fileOp
  · simp only [h]; exact hQ
  · intro k hf; exact hX _ (.inr rfl) hf
  · intro k hf; exact hX _ (.inl rfl) hf

end ops

/-- Standard exceptional postcondition: files satisfy `P`; the cause is a disturbed file
operation, or an assertion that can only fail if `lim` is violated and, moreover, `nb` is
violated or the data file is too large. -/
def XP (σ : Schedule) (P : Fs → Prop) (lim nb : Prop) : Exc → World → Prop := fun x w =>
  P w.fs ∧ ((IsFault x ∧ Faulty σ) ∨ (x = .abort ∧ ¬ lim ∧ (nb → Big w.fs)))

theorem XP.mono {σ : Schedule} {P P' : Fs → Prop} {lim lim' nb nb' : Prop} (hP : ∀ fs, P fs → P' fs)
    (hl : lim' → lim) (hn : nb' → nb) {x : Exc} {w : World} (h : XP σ P lim nb x w) :
    XP σ P' lim' nb' x w := by
  refine ⟨hP _ h.1, ?_⟩
  rcases h.2 with h | h
  · exact .inl h
  · exact .inr ⟨h.1, fun hh => h.2.1 (hl hh), fun hh => h.2.2 (hn hh)⟩

theorem XP.fault {σ : Schedule} {P : Fs → Prop} {lim nb : Prop} {w : World} {fs : Fs} (hP : P fs) :
    ∀ x, IsFault x → Faulty σ → XP σ P lim nb x (w.tick fs) :=
  fun _ hx hf => ⟨hP, .inl ⟨hx, hf⟩⟩

theorem wp_assert {σ : Schedule} {c : Bool} {Q : Unit → World → Prop} {X : Exc → World → Prop}
    {w : World} (hQ : c = true → Q () w) (hX : c = false → X .abort w) :
    wp σ (M.lift (assert c)) Q X w := by
  cases c
  · exact hX rfl
  · exact hQ rfl

end NuDB
