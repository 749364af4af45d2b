import Verif.Proof.File
import Verif.Proof.Bucket
import Verif.Model.BulkIO
/- The sequential reader returns the bytes of the file; the writer appends. -/
namespace NuDB

@[simp] theorem fresh_length (c : Cfg) (n : Nat) : (c.fresh n).length = n := by simp [Cfg.fresh]

/-- The buffered bytes of the reader are the bytes of the file before its read offset. -/
structure RInv (r : Reader) (F : Bytes) : Prop where
  last : r.last ≤ F.length
  off : r.offset ≤ r.last
  avail : r.avail ≤ r.offset
  room : r.used + r.avail ≤ r.buf.length
  data : slice r.buf r.used r.avail = slice F (r.offset - r.avail) r.avail

theorem rinv_new (c : Cfg) (p : Path) {o l n : Nat} {F : Bytes} (hl : l ≤ F.length) (ho : o ≤ l) :
    RInv (Reader.new c p o l n) F where
  last := hl
  off := ho
  avail := Nat.zero_le _
  room := Nat.zero_le _
  data := by simp [Reader.new]

/-- State of the reader after a successful request for `n` bytes. -/
structure RNext (r r' : Reader) (F : Bytes) (n : Nat) : Prop where
  inv : RInv r' F
  path : r'.path = r.path
  last : r'.last = r.last
  pos : r'.pos = r.pos + n
  le : r.pos + n ≤ r.last
  /-- once everything has been read, no further read is necessary -/
  done : r.buf.length ≥ r.last - r.pos → r'.offset = r.last ∨ (n ≤ r.avail ∧ r'.offset = r.offset)
  buf : r.buf.length ≤ r'.buf.length
  /-- a read fills the buffer unless the file ends -/
  full : n ≤ r.avail ∨ r'.offset = r.last ∨ r.buf.length ≤ n + r'.avail

section reader
variable {σ : Schedule} {w : World} {X : Exc → World → Prop}

theorem wp_prepare {c : Cfg} {r : Reader} {f : FileSt} {n : Nat}
    {Q : Bytes × Reader → World → Prop} (hf : w.fs r.path = some f) (hr : RInv r f.cur)
    (hQ : ∀ r' w', RNext r r' f.cur n → w'.fs = w.fs → w'.out = w.out →
      Q (slice f.cur r.pos n, r') w')
    (hS : r.pos + n > r.last → X (.err .short_read) w)
    (hX : ∀ x, IsFault x → Faulty σ → n > r.avail → r.pos + n ≤ r.last → X x (w.tick w.fs)) :
    wp σ (r.prepare c n) Q X w := by
  have hdata := hr.data
  have h1 := hr.last
  have h2 := hr.off
  have h3 := hr.avail
  have h4 := hr.room
  have hpos : r.pos = r.offset - r.avail := rfl
  unfold Reader.prepare
  by_cases hn : n > r.avail
  · rw [if_pos hn]
    by_cases hl : r.offset + n - r.avail > r.last
    · rw [if_pos hl]
      apply wp_bind
      exact wp_fail (hS (by rw [hpos]; omega))
    · rw [if_neg hl]
      simp only [Nat.not_lt] at hl
      apply wp_bind
      apply wp_lift_ok (peek_ok h4)
      generalize hbuf : (if n > r.buf.length then c.fresh n else r.buf) = buf
      have hbl : buf.length = max n r.buf.length := by
        rw [← hbuf]; split
        · simp; omega
        · omega
      apply wp_bind
      have hol : (slice r.buf r.used r.avail).length = r.avail := slice_length_of_le h4
      have hk : 0 + (slice r.buf r.used r.avail).length ≤ buf.length := by rw [hol, hbl]; omega
      apply wp_lift_ok (poke_ok hk)
      simp only [put_length hk]
      generalize hm : min (buf.length - r.avail) (r.last - r.offset) = m
      have hm1 : r.offset + m ≤ r.last := by omega
      have hm2 : r.avail + m ≤ buf.length := by omega
      have hm3 : n ≤ r.avail + m := by omega
      apply wp_bind
      apply wp_fRead hf (by omega) _ (fun x hx hfa => hX x hx hfa hn (by rw [hpos]; omega))
      apply wp_bind
      have hdl : (slice f.cur r.offset m).length = m := slice_length_of_le (by omega)
      have hk2 : r.avail + (slice f.cur r.offset m).length ≤
          (put buf 0 (slice r.buf r.used r.avail)).length := by rw [hdl, put_length hk]; omega
      apply wp_lift_ok (poke_ok hk2)
      apply wp_bind
      apply wp_ret
      apply wp_bind
      -- the new buffer
      have hB : slice (put (put buf 0 (slice r.buf r.used r.avail)) r.avail (slice f.cur r.offset m))
          0 (r.avail + m) = slice f.cur r.pos (r.avail + m) := by
        rw [slice_split, slice_split, Nat.zero_add]
        congr 1
        · rw [slice_put_before (by omega) (by rw [put_length hk]; omega)]
          have := slice_put_same hk
          rw [hol] at this
          rw [this, hdata, hpos]
        · have := slice_put_same hk2
          rw [hdl] at this
          rw [this, hpos]; congr 1; omega
      have hlen : (put (put buf 0 (slice r.buf r.used r.avail)) r.avail
          (slice f.cur r.offset m)).length = buf.length := by
        rw [put_length hk2, put_length hk]
      apply wp_lift_ok (peek_ok (by simp only [hlen]; omega))
      apply wp_ret
      have hout : slice (put (put buf 0 (slice r.buf r.used r.avail)) r.avail
          (slice f.cur r.offset m)) 0 n = slice f.cur r.pos n := by
        have e : slice _ 0 n = slice _ 0 n := congrArg (fun x => slice x 0 n) hB
        rw [slice_slice (by omega), slice_slice (by omega)] at e
        simpa using e
      simp only [hout]
      refine hQ _ _ ?_ rfl rfl
      refine ⟨⟨h1, by simp; omega, by simp; omega, by simp only [hlen]; omega, ?_⟩, rfl, rfl, ?_, by rw [hpos]; omega, ?_, ?_, ?_⟩
      · have e : slice _ n (r.avail + m - n) = slice _ _ _ := congrArg (fun x => slice x n (r.avail + m - n)) hB
        rw [slice_slice (by omega), slice_slice (by omega)] at e
        simp only [Nat.zero_add] at e ⊢
        rw [e]; congr 1; omega
      · simp only [Reader.pos]; omega
      · intro hbig
        left
        simp only [hpos] at hbig ⊢
        omega
      · simp only [hlen]; omega
      · simp only; omega
  · rw [if_neg hn]
    apply wp_bind
    apply wp_ret
    apply wp_bind
    apply wp_lift_ok (peek_ok (by omega))
    apply wp_ret
    have hout : slice r.buf r.used n = slice f.cur r.pos n := by
      have e : slice _ 0 n = slice _ 0 n := congrArg (fun x => slice x 0 n) hdata
      rw [slice_slice (by omega), slice_slice (by omega)] at e
      simpa [hpos] using e
    rw [hout]
    refine hQ _ _ ?_ rfl rfl
    refine ⟨⟨h1, h2, by simp; omega, by simp; omega, ?_⟩, rfl, rfl, ?_, by rw [hpos]; omega, ?_, ?_, .inl (by omega)⟩
    · have e : slice _ n (r.avail - n) = slice _ n (r.avail - n) := congrArg (fun x => slice x n (r.avail - n)) hdata
      rw [slice_slice (by omega), slice_slice (by omega)] at e
      simp only
      rw [e]; congr 1; omega
    · simp only [Reader.pos]; omega
    · intro _; right; exact ⟨by omega, rfl⟩
    · exact Nat.le_refl _

end reader

/-- Contents that an append-only writer may give a file. -/
structure Appendable (p : Path) (A : Bytes → Prop) (P : Fs → Prop) : Prop where
  prefix_closed : ∀ a b, A (a ++ b) → A a
  step : ∀ fs f bs, P fs → fs p = some f → A (f.cur ++ bs) →
    P (fs.set p (some (f.push (.write f.cur.length bs))))

/-- The file followed by the buffered bytes is `V`. -/
structure WInv0 (wr : Writer) (p : Path) (fs : Fs) (V : Bytes) : Prop where
  path : wr.path = p
  file : ∃ f, fs p = some f ∧ f.cur ++ wr.data = V ∧ wr.offset = f.cur.length
  cap : wr.data.length ≤ wr.cap

/-- Likewise, with a bound on the size of the buffer. -/
structure WInv (wr : Writer) (p : Path) (fs : Fs) (V : Bytes) : Prop where
  path : wr.path = p
  file : ∃ f, fs p = some f ∧ f.cur ++ wr.data = V ∧ wr.offset = f.cur.length
  cap : wr.data.length ≤ wr.cap
  small : wr.cap < 2 ^ 32 + 2 ^ 18

theorem WInv.to0 {wr : Writer} {p : Path} {fs : Fs} {V : Bytes} (h : WInv wr p fs V) : WInv0 wr p fs V :=
  ⟨h.path, h.file, h.cap⟩

theorem WInv0.to {wr : Writer} {p : Path} {fs : Fs} {V : Bytes} (h : WInv0 wr p fs V)
    (hs : wr.cap < 2 ^ 32 + 2 ^ 18) : WInv wr p fs V := ⟨h.path, h.file, h.cap, hs⟩

theorem WInv0.pos {wr : Writer} {p : Path} {fs : Fs} {V : Bytes} (h : WInv0 wr p fs V) :
    wr.pos = V.length := by
  obtain ⟨f, _, h1, h2⟩ := h.file
  rw [← h1, Writer.pos, h2]; simp

theorem WInv.pos {wr : Writer} {p : Path} {fs : Fs} {V : Bytes} (h : WInv wr p fs V) :
    wr.pos = V.length := by
  obtain ⟨f, _, h1, h2⟩ := h.file
  rw [← h1, Writer.pos, h2]; simp

theorem WInv.big {wr : Writer} {fs : Fs} {V : Bytes} (h : WInv wr .dat fs V) (hV : 2 ^ 48 ≤ V.length + 8) :
    Spec.Big fs := by
  obtain ⟨f, hf, h1, _⟩ := h.file
  have h2 := h.cap
  have h3 := h.small
  refine ⟨f, hf, ?_⟩
  rw [← h1, List.length_append] at hV
  omega

theorem winv_new {p : Path} {fs : Fs} {f : FileSt} (h : fs p = some f) {n : Nat} (hn : n < 2 ^ 32 + 2 ^ 18) :
    WInv (Writer.new p f.cur.length n) p fs f.cur where
  path := rfl
  file := ⟨f, h, by simp [Writer.new], rfl⟩
  cap := Nat.zero_le _
  small := hn

/-- Files other than `p` are the same. -/
def SameExcept (p : Path) (fs fs' : Fs) : Prop := ∀ q, q ≠ p → fs' q = fs q

theorem SameExcept.refl (p : Path) (fs : Fs) : SameExcept p fs fs := fun _ _ => rfl

theorem SameExcept.trans {p : Path} {a b c : Fs} (h1 : SameExcept p a b) (h2 : SameExcept p b c) :
    SameExcept p a c := fun q hq => (h2 q hq).trans (h1 q hq)

theorem SameExcept.set (p : Path) (fs : Fs) (f : Option FileSt) : SameExcept p fs (fs.set p f) :=
  fun q hq => Fs.set_other fs f hq

section writer
variable {σ : Schedule} {w : World} {P : Fs → Prop} {A : Bytes → Prop} {lim nb : Prop}

theorem wp_wflush0 {wr : Writer} {p : Path} {V : Bytes} {Q : Writer → World → Prop}
    (hw : WInv0 wr p w.fs V) (hP : P w.fs) (hA : Appendable p A P) (hV : A V)
    (hQ : ∀ wr' w', WInv0 wr' p w'.fs V → wr'.data = [] → wr'.cap = wr.cap → P w'.fs → SameExcept p w.fs w'.fs →
      w'.out = w.out → Q wr' w') :
    wp σ wr.flush Q (XP σ P lim nb) w := by
  obtain ⟨f, hf, hfv, hoff⟩ := hw.file
  unfold Writer.flush
  by_cases hd : wr.data.length ≠ 0
  · rw [if_pos hd]
    apply wp_bind
    apply wp_fAppend (f := f) (by rw [hw.path]; exact hf) hoff
    · apply wp_ret
      refine hQ _ _ ⟨hw.path, ⟨f.push (.write wr.offset wr.data), ?_, ?_, ?_⟩, Nat.zero_le _⟩ rfl rfl ?_ ?_ rfl
      · simp [hw.path]
      · rw [cur_push, hoff]; simp [POp.apply, writeAt_end, hfv]
      · rw [cur_push, hoff]; simp [POp.apply, writeAt_end]
      · simp only [tick_fs, hw.path]; rw [hoff]; exact hA.step _ _ _ hP hf (by rw [hfv]; exact hV)
      · rw [hw.path]; exact SameExcept.set _ _ _
    · intro x k hx hfa
      refine ⟨?_, .inl ⟨hx, hfa⟩⟩
      simp only [tick_fs, hw.path]; rw [hoff]
      apply hA.step _ _ _ hP hf
      apply hA.prefix_closed _ (wr.data.drop k)
      rw [List.append_assoc, List.take_append_drop, hfv]; exact hV
  · rw [if_neg hd]
    apply wp_ret
    have : wr.data = [] := by simpa using hd
    exact hQ _ _ hw this rfl hP (SameExcept.refl _ _) rfl

theorem wp_wappend0 {wr : Writer} {p : Path} {V bs : Bytes} {Q : Writer → World → Prop}
    (hw : WInv0 wr p w.fs V) (hP : P w.fs) (hA : Appendable p A P) (hV : A V)
    (hQ : ∀ wr' w', WInv0 wr' p w'.fs (V ++ bs) → wr'.cap = max wr.cap bs.length → P w'.fs → SameExcept p w.fs w'.fs →
      w'.out = w.out → Q wr' w') :
    wp σ (wr.append bs) Q (XP σ P lim nb) w := by
  unfold Writer.append
  have fin : ∀ (wr' : Writer) (w' : World), WInv0 wr' p w'.fs V → wr'.cap = wr.cap →
      (wr'.data.length + bs.length ≤ wr'.cap ∨ wr'.data = []) → P w'.fs →
      SameExcept p w.fs w'.fs → w'.out = w.out →
      wp σ (M.ret { (if bs.length > wr'.cap then { wr' with cap := bs.length, data := [] } else wr') with
          data := (if bs.length > wr'.cap then { wr' with cap := bs.length, data := [] } else wr').data ++ bs })
        Q (XP σ P lim nb) w' := by
    intro wr' w' hw' hcap hd hP' hs ho
    apply wp_ret
    obtain ⟨f, hf, hfv, hoff⟩ := hw'.file
    refine hQ _ _ ?_ (by split <;> simp <;> omega) hP' hs ho
    by_cases hb : bs.length > wr'.cap
    · have hd2 : wr'.data = [] := by
        rcases hd with hd | hd
        · omega
        · exact hd
      simp only [if_pos hb]
      refine ⟨hw'.path, ⟨f, hf, ?_, hoff⟩, by simp⟩
      rw [hd2] at hfv; simp only [List.append_nil] at hfv; simp [hfv]
    · simp only [if_neg hb]
      refine ⟨hw'.path, ⟨f, hf, ?_, hoff⟩, ?_⟩
      · rw [← hfv]; simp
      · rcases hd with hd | hd
        · simpa using hd
        · simp [hd]; omega
  by_cases hc : wr.data.length + bs.length > wr.cap
  · rw [if_pos hc]
    apply wp_bind
    apply wp_wflush0 hw hP hA hV
    intro wr' w' h1 h2 hc' h3 h4 h5
    exact fin wr' w' h1 hc' (.inr h2) h3 h4 h5
  · rw [if_neg hc]
    apply wp_bind
    apply wp_ret
    exact fin wr w hw rfl (.inl (by omega)) hP (SameExcept.refl _ _) rfl

theorem wp_wflush {wr : Writer} {p : Path} {V : Bytes} {Q : Writer → World → Prop}
    (hw : WInv wr p w.fs V) (hP : P w.fs) (hA : Appendable p A P) (hV : A V)
    (hQ : ∀ wr' w', WInv wr' p w'.fs V → wr'.data = [] → P w'.fs → SameExcept p w.fs w'.fs →
      w'.out = w.out → Q wr' w') :
    wp σ wr.flush Q (XP σ P lim nb) w :=
  wp_wflush0 hw.to0 hP hA hV
    (fun wr' w' h1 h2 h3 => hQ wr' w' (h1.to (by rw [h3]; exact hw.small)) h2)

theorem wp_wappend {wr : Writer} {p : Path} {V bs : Bytes} {Q : Writer → World → Prop}
    (hw : WInv wr p w.fs V) (hP : P w.fs) (hA : Appendable p A P) (hV : A V)
    (hbs : bs.length < 2 ^ 32 + 2 ^ 18)
    (hQ : ∀ wr' w', WInv wr' p w'.fs (V ++ bs) → P w'.fs → SameExcept p w.fs w'.fs →
      w'.out = w.out → Q wr' w') :
    wp σ (wr.append bs) Q (XP σ P lim nb) w :=
  wp_wappend0 hw.to0 hP hA hV
    (fun wr' w' h1 h3 => hQ wr' w' (h1.to (by have := hw.small; omega)))

end writer

end NuDB
