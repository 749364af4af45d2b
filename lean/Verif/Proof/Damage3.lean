import Verif.Proof.Damage2
/- `commit` on files with arbitrary content. -/
namespace NuDB

open Spec

/-- A writer positioned at the end of its file. -/
structure AtEnd (wr : Writer) (p : Path) (fs : Fs) : Prop where
  path : wr.path = p
  file : ∃ f, fs p = some f ∧ wr.offset = f.cur.length

/-- Nothing but this file changed, and it still exists. -/
structure Only' (p : Path) (fs fs' : Fs) : Prop where
  same : ∀ q, q ≠ p → fs' q = fs q
  file : ∃ f, fs' p = some f

section
variable {σ : Schedule} {c : Cfg} {S : List Path} {w : World} {bs : Nat} {p : Path}

theorem Only'.has {fs fs' : Fs} (h : Only' p fs fs') (hs : Has S fs) : Has S fs' := by
  intro q hq
  by_cases e : q = p
  · subst e; exact h.file
  · rw [h.same q e]; exact hs q hq

theorem Only'.refl {fs : Fs} (h : ∃ f, fs p = some f) : Only' p fs fs := ⟨fun _ _ => rfl, h⟩

theorem Only'.trans {a b d : Fs} (h : Only' p a b) (h' : Only' p b d) : Only' p a d :=
  ⟨fun q hq => (h'.same q hq).trans (h.same q hq), h'.file⟩

theorem Only'.set {fs : Fs} (f : FileSt) : Only' p fs (fs.set p (some f)) :=
  ⟨fun q hq => Fs.set_other fs _ hq, ⟨f, by simp⟩⟩

theorem dflush {wr : Writer} {Q : Writer → World → Prop} (h : AtEnd wr p w.fs) (hs : Has S w.fs)
    (hq : ∀ wr' w', AtEnd wr' p w'.fs → wr'.data = [] → Only' p w.fs w'.fs → Q wr' w') : wp σ wr.flush Q (Tame σ (Has S)) w := by
  obtain ⟨f, hf, ho⟩ := h.file
  unfold Writer.flush
  split
  · apply wp_bind
    refine dfAppend (by rw [h.path]; exact hf) ho hs ?_
    intro w1 h1
    rw [h.path] at h1
    refine wp_ret (hq _ _ ⟨h.path, _, by rw [h1]; simp; rfl, ?_⟩ rfl (by rw [h1]; exact Only'.set _))
    rw [cur_push, ho]; simp [POp.apply, writeAt_end]
  · rename_i hd
    refine wp_ret (hq _ _ h (by simpa using hd) (Only'.refl ⟨f, hf⟩))

theorem dappend {wr : Writer} {x : Bytes} {Q : Writer → World → Prop} (h : AtEnd wr p w.fs) (hs : Has S w.fs)
    (hq : ∀ wr' w', AtEnd wr' p w'.fs → Only' p w.fs w'.fs → Q wr' w') : wp σ (wr.append x) Q (Tame σ (Has S)) w := by
  have fin : ∀ (wr' : Writer) (w' : World), AtEnd wr' p w'.fs → Only' p w.fs w'.fs →
      wp σ (M.ret { (if x.length > wr'.cap then { wr' with cap := x.length, data := [] } else wr') with
          data := (if x.length > wr'.cap then { wr' with cap := x.length, data := [] } else wr').data ++ x })
        Q (Tame σ (Has S)) w' := by
    intro wr' w' h' ho
    apply wp_ret
    split
    · exact hq _ _ ⟨h'.path, h'.file⟩ ho
    · exact hq _ _ ⟨h'.path, h'.file⟩ ho
  unfold Writer.append
  split
  · apply wp_bind
    refine dflush h hs ?_
    intro wr' w' h1 _ h2
    exact fin wr' w' h1 h2
  · obtain ⟨f, hf, _⟩ := h.file
    exact fin wr w h (Only'.refl ⟨f, hf⟩)

theorem dmaybeSpill {b : Bkt} {wr : Writer} {Q : Bkt × Writer → World → Prop} (hc : 1 ≤ bucketCapacity bs) (hb : Fine bs b)
    (h : AtEnd wr p w.fs) (hs : Has S w.fs)
    (hq : ∀ b' wr' w', Fine bs b' → b'.size < bucketCapacity bs → AtEnd wr' p w'.fs → Only' p w.fs w'.fs → Q (b', wr') w') :
    wp σ (maybeSpill b wr) Q (Tame σ (Has S)) w := by
  have h8 := (cap_room hc).1
  unfold maybeSpill
  split
  · dsimp only
    apply wp_bind
    apply wp_rp (rp_compact hb hc) hs
    intro body _
    apply wp_bind
    refine wp_rp (R := fun _ => True) (by unfold assert; split <;> trivial) hs fun _ _ => ?_
    apply wp_bind
    refine dappend h hs ?_
    intro wr1 w1 h1 o1
    have hs1 := o1.has hs
    apply wp_bind
    apply wp_rp (rp_clear hb.block hb.len (by omega)) hs1
    intro b1 ⟨g1, z1⟩
    apply wp_bind
    apply wp_rp (rp_setSpill g1 (by omega)) hs1
    intro b2 ⟨g2, z2⟩
    exact wp_ret (hq _ _ _ g2 (by omega) h1 o1)
  · rename_i hf
    obtain ⟨f, hf', _⟩ := h.file
    refine wp_ret (hq _ _ _ hb ?_ h (Only'.refl ⟨f, hf'⟩))
    unfold Bkt.full at hf
    rw [hb.block] at hf
    simpa using hf

theorem dsplitTmp {n1 n2 B m : Nat} {tmp : Bkt} (hc : 1 ≤ bucketCapacity bs) (ht : Fine bs tmp) :
    ∀ (fuel i : Nat) (b1 b2 : Bkt) (wr : Writer) (w : World), Fine bs b1 → Fine bs b2 → AtEnd wr p w.fs → Has S w.fs →
    wp σ (splitTmp n1 n2 B m tmp fuel i b1 b2 wr)
      (fun x w' => Fine bs x.1 ∧ Fine bs x.2.1 ∧ AtEnd x.2.2 p w'.fs ∧ Only' p w.fs w'.fs) (Tame σ (Has S)) w := by
  intro fuel
  induction fuel with
  | zero => intro i b1 b2 wr w h1 h2 hw hs; exact wp_raise (Tame.hang hs)
  | succ n ih =>
    intro i b1 b2 wr w h1 h2 hw hs
    have := ht.room hc
    have := ht.len
    unfold splitTmp
    split
    · apply wp_bind
      apply wp_rp (rp_get (by omega)) hs
      intro e _
      apply wp_bind
      apply wp_rp rp_bucketIndexA hs
      intro n _
      apply wp_bind
      refine wp_rp (R := fun _ => True) (by unfold assert; split <;> trivial) hs fun _ _ => ?_
      split
      · apply wp_bind
        refine dmaybeSpill hc h2 hw hs ?_
        intro b2' wr' w' g2 z2 a2 o2
        apply wp_bind
        apply wp_rp (rp_insert g2 hc z2) (o2.has hs)
        intro b2'' ⟨g3, _⟩
        refine wp_post (ih _ _ _ _ _ h1 g3 a2 (o2.has hs)) ?_
        intro x w'' ⟨q1, q2, q3, q4⟩
        exact ⟨q1, q2, q3, o2.trans q4⟩
      · apply wp_bind
        refine dmaybeSpill hc h1 hw hs ?_
        intro b2' wr' w' g2 z2 a2 o2
        apply wp_bind
        apply wp_rp (rp_insert g2 hc z2) (o2.has hs)
        intro b2'' ⟨g3, _⟩
        refine wp_post (ih _ _ _ _ _ g3 h2 a2 (o2.has hs)) ?_
        intro x w'' ⟨q1, q2, q3, q4⟩
        exact ⟨q1, q2, q3, o2.trans q4⟩
    · obtain ⟨f, hf', _⟩ := hw.file
      exact wp_ret ⟨h1, h2, hw, Only'.refl ⟨f, hf'⟩⟩

theorem dsplitSpills {cap n1 n2 B m : Nat} (hc : 1 ≤ bucketCapacity bs) :
    ∀ (fuel spill : Nat) (b1 b2 tmp : Bkt) (wr : Writer) (w : World), Fine bs b1 → Fine bs b2 → tmp.bs = bs → tmp.p.length = bs →
    AtEnd wr .dat w.fs → Has S w.fs →
    wp σ (splitSpills cap n1 n2 B m fuel spill b1 b2 tmp wr)
      (fun x w' => Fine bs x.1 ∧ Fine bs x.2.1 ∧ x.2.2.1.bs = bs ∧ x.2.2.1.p.length = bs ∧ AtEnd x.2.2.2 .dat w'.fs ∧ Only' .dat w.fs w'.fs)
      (Tame σ (Has S)) w := by
  intro fuel
  induction fuel with
  | zero => intro i b1 b2 tmp wr w h1 h2 t1 t2 hw hs; exact wp_raise (Tame.hang hs)
  | succ n ih =>
    intro spill b1 b2 tmp wr w h1 h2 t1 t2 hw hs
    have rest : ∀ (wr1 : Writer) (w1 : World), AtEnd wr1 .dat w1.fs → Only' .dat w.fs w1.fs →
        wp σ (tmp.readFile .dat spill >>= fun tmp => splitTmp n1 n2 B m tmp (tmp.size + 1) 0 b1 b2 wr1 >>= fun x =>
          if tmp.spill ≠ 0 then splitSpills cap n1 n2 B m n tmp.spill x.1 x.2.1 tmp x.2.2 else M.ret (x.1, x.2.1, tmp, x.2.2))
        (fun x w' => Fine bs x.1 ∧ Fine bs x.2.1 ∧ x.2.2.1.bs = bs ∧ x.2.2.1.p.length = bs ∧ AtEnd x.2.2.2 .dat w'.fs ∧ Only' .dat w.fs w'.fs)
        (Tame σ (Has S)) w1 := by
      intro wr1 w1 a1 o1
      apply wp_bind
      refine dreadFile o1.file (o1.has hs) hc t1 (by omega) ?_
      intro t w2 g1 g2 g3 g4 e2
      have ft : Fine bs t := ⟨g1, by omega, g3, g4⟩
      apply wp_bind
      refine wp_post (dsplitTmp hc ft _ _ _ _ _ w2 h1 h2 (by rw [e2]; exact a1) (by rw [e2]; exact o1.has hs)) ?_
      intro x w3 ⟨q1, q2, q3, q4⟩
      rw [e2] at q4
      split
      · refine wp_post (ih _ _ _ _ _ w3 q1 q2 g1 ft.len q3 ((o1.trans q4).has hs)) ?_
        intro y w4 ⟨r1, r2, r3, r4, r5, r6⟩
        exact ⟨r1, r2, r3, r4, r5, (o1.trans q4).trans r6⟩
      · exact wp_ret ⟨q1, q2, g1, ft.len, q3, o1.trans q4⟩
    unfold splitSpills
    split
    · apply wp_bind
      refine dflush hw hs ?_
      intro wr1 w1 a1 _ o1
      exact rest wr1 w1 a1 o1
    · obtain ⟨f, hf', _⟩ := hw.file
      exact rest wr w hw (Only'.refl ⟨f, hf'⟩)

theorem dsplit {cap n1 n2 B m : Nat} {b1 b2 tmp : Bkt} {wr : Writer} (hc : 1 ≤ bucketCapacity bs) (h1 : Fine bs b1) (h2 : Fine bs b2)
    (hz : b2.size = 0) (t1 : tmp.bs = bs) (t2 : tmp.p.length = bs) (hw : AtEnd wr .dat w.fs) (hs : Has S w.fs) :
    wp σ (split cap n1 n2 B m b1 b2 tmp wr)
      (fun x w' => Fine bs x.1 ∧ Fine bs x.2.1 ∧ x.2.2.1.bs = bs ∧ x.2.2.1.p.length = bs ∧ AtEnd x.2.2.2 .dat w'.fs ∧ Only' .dat w.fs w'.fs)
      (Tame σ (Has S)) w := by
  have h8 := (cap_room hc).1
  obtain ⟨f, hf', _⟩ := hw.file
  have o := Only'.refl (p := .dat) ⟨f, hf'⟩
  unfold split
  split
  · exact wp_ret ⟨h1, h2, t1, t2, hw, o⟩
  · apply wp_bind
    apply wp_rp (rp_splitOwn hc _ _ _ _ h1 h2 (by have := h1.size; omega) (by omega) (by omega)) hs
    intro ⟨b1', b2'⟩ ⟨g1, g2⟩
    dsimp only at g1 g2 ⊢
    split
    · apply wp_bind
      apply wp_rp (rp_setSpill g1 (by omega)) hs
      intro b1'' ⟨g3, _⟩
      exact dsplitSpills hc _ _ _ _ _ _ _ g3 g2 t1 t2 hw hs
    · exact wp_ret ⟨g1, g2, t1, t2, hw, o⟩

end

end NuDB
