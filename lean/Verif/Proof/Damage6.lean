import Verif.Proof.Damage5
/- Readers, and `rekey` for a data file with arbitrary content. -/
namespace NuDB

open Spec

section
variable {σ : Schedule} {c : Cfg} {S : List Path} {P : Fs → Prop} {w : World} {bs : Nat}

theorem cap_pos (h : 104 ≤ bs) : 1 ≤ bucketCapacity bs := by
  unfold bucketCapacity
  have e : keyHeaderSize = 104 := rfl
  split
  · rename_i h'
    simp only [Bool.or_eq_true, decide_eq_true_eq] at h'
    omega
  · omega

theorem wp_fCreate' {p : Path} {Q : Unit → World → Prop} {X : Exc → World → Prop} (h : w.fs p = none)
    (hQ : ∀ w', w'.fs = w.fs.set p (some (FileSt.clean [])) → Q () w') (hX : ∀ x w', IsFault x → Faulty σ → X x w') :
    wp σ (fCreate p) Q X w :=
  wp_fCreate h (hQ _ rfl) (fun x hx hf => ⟨hX _ _ hx hf, hX _ _ hx hf⟩)

/-- The unread bytes lie in the buffer. -/
def ROk (r : Reader) : Prop := r.used + r.avail ≤ r.buf.length

theorem dprepare {r : Reader} {n : Nat} {Q : Bytes × Reader → World → Prop} (hr : ROk r) (hp : ∃ f, w.fs r.path = some f) (hs : P w.fs)
    (hq : ∀ x r' w', x.length = n → ROk r' → r'.path = r.path → w'.fs = w.fs → Q (x, r') w') :
    wp σ (r.prepare c n) Q (Tame σ P) w := by
  unfold ROk at hr
  have fin : ∀ (r' : Reader) (w' : World), ROk r' → r'.path = r.path → w'.fs = w.fs → n ≤ r'.avail →
      wp σ (do let out ← M.lift (peek r'.buf r'.used n)
               M.ret (out, { r' with used := r'.used + n, avail := r'.avail - n }) : M (Bytes × Reader)) Q (Tame σ P) w' := by
    intro r' w' h1 h2 h3 h4
    unfold ROk at h1
    apply wp_bind
    apply wp_rp (rp_peek (by omega) rfl) (by rw [h3]; exact hs)
    rintro _ rfl
    refine wp_ret (hq _ _ _ (slice_length_of_le (by omega)) ?_ h2 h3)
    show r'.used + n + (r'.avail - n) ≤ r'.buf.length
    omega
  unfold Reader.prepare
  dsimp only
  split
  · split
    · exact wp_fail (Tame.err _ hs)
    · apply wp_bind
      apply wp_rp (rp_peek hr rfl) hs
      rintro _ rfl
      have hol : (slice r.buf r.used r.avail).length = r.avail := slice_length_of_le hr
      apply wp_bind
      generalize hb : (if n > r.buf.length then c.fresh n else r.buf) = buf
      have hbl : r.buf.length ≤ buf.length ∧ n ≤ buf.length := by
        rw [← hb]
        split
        · rw [fresh_length]; omega
        · omega
      apply wp_rp (rp_poke (by omega) rfl) hs
      rintro _ rfl
      have hl : (put buf 0 (slice r.buf r.used r.avail)).length = buf.length := put_length (by omega)
      apply wp_bind
      refine dfRead hp hs ?_
      intro data w1 hd h1
      rw [hl] at hd
      apply wp_bind
      apply wp_rp (rp_poke (by rw [hl]; omega) rfl) (by rw [h1]; exact hs)
      rintro _ rfl
      apply wp_bind
      apply wp_ret
      refine fin _ _ ?_ rfl h1 ?_
      · show 0 + (r.avail + _) ≤ (put (put buf 0 _) r.avail data).length
        have : (put (put buf 0 (slice r.buf r.used r.avail)) r.avail data).length = buf.length := by
          rw [← hl]; exact put_length (by rw [hl]; omega)
        rw [this, hl]
        omega
      · show n ≤ r.avail + _
        rw [hl]
        omega
  · apply wp_bind
    apply wp_ret
    exact fin r w hr rfl rfl (by omega)

/-- The buffer with the blobs of some buckets. -/
def FineBuf (bs n : Nat) (buf : List Bytes) : Prop := buf.length = n ∧ ∀ p ∈ buf, FineMem bs p

theorem drekeyStep {kh : KeyHeader} {b0 b1 pre nwork : Nat} {buf : List Bytes} {dw : Writer} {r : Reader}
    {Q : List Bytes × Writer × Reader → World → Prop}
    (hc : 1 ≤ bucketCapacity kh.blockSize) (hb : FineBuf kh.blockSize (b1 - b0) buf) (hw : AtEnd dw .dat w.fs) (hr : ROk r)
    (hp : r.path = .dat) (hs : Has S w.fs)
    (hq : ∀ buf' dw' r' w', FineBuf kh.blockSize (b1 - b0) buf' → AtEnd dw' .dat w'.fs → ROk r' → r'.path = .dat →
      Only' .dat w.fs w'.fs → Q (buf', dw', r') w') :
    wp σ (rekeyStep c kh b0 b1 pre nwork buf dw r) Q (Tame σ (Has S)) w := by
  obtain ⟨f, hf, hfo⟩ := hw.file
  have h0 : Only' .dat w.fs w.fs := Only'.refl ⟨f, hf⟩
  unfold rekeyStep
  dsimp only
  apply wp_bind
  refine dprepare hr (by rw [hp]; exact ⟨f, hf⟩) hs ?_
  intro is r1 w1 _ hr1 hp1 e1
  have hs1 : Has S w1.fs := by rw [e1]; exact hs
  have hf1 : w1.fs .dat = some f := by rw [e1]; exact hf
  rw [hp] at hp1
  dsimp only
  apply wp_bind
  apply wp_emit
  apply wp_bind
  apply wp_rp (P := Has S) (rp_getSize48 (Q := fun _ => True) fun _ => trivial) (by exact hs1)
  intro size _
  split
  · apply wp_bind
    refine dprepare hr1 (by rw [hp1]; exact ⟨f, hf1⟩) (by exact hs1) ?_
    intro is2 r2 w2 _ hr2 hp2 e2
    rw [hp1] at hp2
    have e2' : w2.fs = w.fs := e2.trans e1
    have hs2 : Has S w2.fs := by rw [e2']; exact hs
    dsimp only
    apply wp_bind
    apply wp_rp rp_bucketIndexA hs2
    intro n _
    split
    · exact wp_ret (hq _ _ _ _ hb (by rw [e2']; exact hw) hr2 hp2 (by rw [e2']; exact h0))
    · rename_i hn
      have hlt : n - b0 < buf.length := by rw [hb.1]; omega
      rw [List.getElem?_eq_getElem hlt]
      dsimp only
      apply wp_bind
      apply wp_rp (rp_ofMem hc (hb.2 _ (List.getElem_mem hlt))) hs2
      intro b hb1
      apply wp_bind
      refine dmaybeSpill hc hb1 (by rw [e2']; exact hw) hs2 ?_
      intro b' dw' w3 g1 g2 g3 g4
      rw [e2'] at g4
      apply wp_bind
      apply wp_rp (rp_insert g1 hc g2) (g4.has hs)
      intro b'' ⟨k1, _⟩
      refine wp_ret (hq _ _ _ _ ⟨by rw [List.length_set]; exact hb.1, ?_⟩ g3 hr2 hp2 g4)
      intro p hp
      rcases List.mem_or_eq_of_mem_set hp with h | h
      · exact hb.2 p h
      · rw [h]; exact k1.mem
  · apply wp_bind
    refine dprepare hr1 (by rw [hp1]; exact ⟨f, hf1⟩) (by exact hs1) ?_
    intro is2 r2 w2 _ hr2 hp2 e2
    rw [hp1] at hp2
    have e2' : w2.fs = w.fs := e2.trans e1
    dsimp only
    apply wp_bind
    refine dprepare hr2 (by rw [hp2, e2']; exact ⟨f, hf⟩) (by rw [e2']; exact hs) ?_
    intro is3 r3 w3 _ hr3 hp3 e3
    rw [hp2] at hp3
    have e3' : w3.fs = w.fs := e3.trans e2'
    exact wp_ret (hq _ _ _ _ hb (by rw [e3']; exact hw) hr3 hp3 (by rw [e3']; exact h0))

theorem drekeyScan {kh : KeyHeader} {b0 b1 pre nwork : Nat} (hc : 1 ≤ bucketCapacity kh.blockSize) :
    ∀ (fuel : Nat) (buf : List Bytes) (dw : Writer) (r : Reader) (w : World), FineBuf kh.blockSize (b1 - b0) buf → AtEnd dw .dat w.fs →
      ROk r → r.path = .dat → Has S w.fs →
    wp σ (rekeyScan c kh b0 b1 pre nwork fuel buf dw r)
      (fun x w' => FineBuf kh.blockSize (b1 - b0) x.1 ∧ AtEnd x.2 .dat w'.fs ∧ Only' .dat w.fs w'.fs) (Tame σ (Has S)) w := by
  intro fuel
  induction fuel with
  | zero => intro buf dw r w _ _ _ _ hs; exact wp_raise (Tame.hang hs)
  | succ fuel ih =>
    intro buf dw r w hb hw hr hp hs
    unfold rekeyScan
    split
    · obtain ⟨f, hf, _⟩ := hw.file
      exact wp_ret ⟨hb, hw, Only'.refl ⟨f, hf⟩⟩
    · apply wp_bind
      refine drekeyStep hc hb hw hr hp hs ?_
      intro buf' dw' r' w1 g1 g2 g3 g4 g5
      refine wp_post (ih buf' dw' r' w1 g1 g2 g3 g4 (g5.has hs)) ?_
      intro x w2 ⟨k1, k2, k3⟩
      exact ⟨k1, k2, g5.trans k3⟩

theorem rp_emptyBuckets (h : 8 ≤ bs) (hc : 1 ≤ bucketCapacity bs) : ∀ n, rp (emptyBuckets c bs n) (FineBuf bs n) := by
  intro n
  induction n with
  | zero => exact rp_ok ⟨rfl, fun p hp => by cases hp⟩
  | succ n ih =>
    unfold emptyBuckets
    apply rp_bind
    refine rp_post (rp_ofEmpty (fresh_length _ _) h) fun b ⟨hb, _⟩ => ?_
    apply rp_bind
    refine rp_post ih fun l hl => ?_
    refine rp_ok ⟨by simp [hl.1], ?_⟩
    intro p hp
    rcases List.mem_cons.mp hp with rfl | hp
    · exact hb.mem
    · exact hl.2 p hp

theorem drekeyChunks {kh : KeyHeader} {dataFileSize chunk nwork : Nat} (hc : 1 ≤ bucketCapacity kh.blockSize) :
    ∀ (fuel b0 : Nat) (dw : Writer) (w : World), AtEnd dw .dat w.fs → Has [.dat, .key, .log] w.fs →
    wp σ (rekeyChunks c kh dataFileSize chunk nwork fuel b0 dw)
      (fun dw' w' => AtEnd dw' .dat w'.fs ∧ Has [.dat, .key, .log] w'.fs) (Tame σ (Has [.dat, .key, .log])) w := by
  have h8 := cap_room hc
  intro fuel
  induction fuel with
  | zero => intro b0 dw w _ hs; exact wp_raise (Tame.hang hs)
  | succ fuel ih =>
    intro b0 dw w hw hs
    unfold rekeyChunks
    split
    · dsimp only
      apply wp_bind
      apply wp_rp (rp_emptyBuckets (by omega) hc _) hs
      intro buf hb
      apply wp_bind
      refine wp_post (drekeyScan hc _ _ _ _ w hb hw (by unfold ROk Reader.new; simp) rfl hs) ?_
      intro ⟨buf', dw'⟩ w1 ⟨_, g2, g3⟩
      have hs1 := g3.has hs
      obtain ⟨kf, hk⟩ := hs1.key
      apply wp_bind
      refine dfWrite hk hs1 ?_
      intro w2 e2
      obtain ⟨df, hd, ho⟩ := g2.file
      exact ih _ _ w2 ⟨g2.path, df, by rw [e2]; simpa using hd, ho⟩ (by rw [e2]; exact hs1.set _ _)
    · exact wp_ret ⟨hw, hs⟩

theorem drekey {a : RekeyArgs} (hb : 104 ≤ a.blockSize) (hl : ∃ lf, a.load.fixed = .ok lf) :
    wp σ (rekey c a) (fun _ _ => True) (Mannered σ) w := by
  obtain ⟨lf, hlf⟩ := hl
  have hc := cap_pos hb
  have hF : ∀ x (w' : World), IsFault x → Faulty σ → Mannered σ x w' := fun x w' hx hf => Mannered.fault hx hf
  unfold rekey
  apply wp_bind
  cases hd : w.fs .dat with
  | none => exact wp_fOpen_none hd (Mannered.err _) (fun x hx h => hF x _ hx h)
  | some df =>
  refine wp_fOpen hd ?_ (fun x hx h => hF x _ hx h)
  apply wp_bind
  unfold readDatHeader
  apply wp_bind
  refine wp_fRead_any (f := df) (by exact hd) (by decide) ?_ (fun _ => Mannered.err _) (fun x hx h => hF x _ hx h)
  intro _
  apply wp_ret
  apply wp_bind
  refine wp_check_free (fun _ => ?_) (fun e => Mannered.err _)
  apply wp_bind
  refine wp_fSize (f := df) (by exact hd) ?_ (fun x hx h => hF x _ hx h)
  apply wp_bind
  apply wp_attempt
  have hfail : ∀ (x : Exc) (w' : World), IsFault x → Faulty σ →
      (match x with
        | .err e => wp σ (match (Except.error e : Except Err Unit) with
            | .ok _ => M.fail .log_file_exists
            | .error .no_such_file => do
              let lf ← M.lift a.load.fixed
              let kh := rekeyHeader c.H (getDatHeader (slice df.cur 0 datHeaderSize)) a lf
              rekeyPrepare c kh df.cur.length
              rekeyAlloc kh
              let chunk := max 1 (a.bufferSize / kh.blockSize)
              let passes := (kh.buckets + chunk - 1) / chunk
              let nwork := passes * df.cur.length
              emit (.progress 0 nwork)
              let dw ← rekeyChunks c kh df.cur.length chunk nwork (kh.buckets + 1) 0
                (Writer.new .dat df.cur.length (16 * 4096))
              let _ ← dw.flush
              fErase .log
            | .error e => M.fail e : M Unit) (fun _ _ => True) (Mannered σ) w'
        | x => Mannered σ x w') := by
    intro x w' hx hf
    rcases hx with rfl | rfl
    · exact Mannered.fault (.inl rfl) hf
    · exact wp_fail (Mannered.err _)
  cases hlog : w.fs .log with
  | some l =>
    refine wp_fOpen (f := l) (by exact hlog) (wp_fail (Mannered.err _)) ?_
    intro x hx hf
    exact hfail x _ hx hf
  | none =>
    refine wp_fOpen_none (by exact hlog) ?_ ?_
    · apply wp_bind
      apply wp_lift_ok hlf
      dsimp only
      generalize hkh : rekeyHeader c.H (getDatHeader (slice df.cur 0 datHeaderSize)) a lf = kh
      have hbs : kh.blockSize = a.blockSize := by rw [← hkh]; rfl
      apply wp_bind
      unfold rekeyPrepare
      apply wp_bind
      cases hk : w.fs .key with
      | some k => exact wp_fCreate_some (f := k) (by exact hk) (Mannered.err _) (fun x hx h => hF x _ hx h)
      | none =>
      refine wp_fCreate' (by exact hk) ?_ hF
      intro w0 hw0
      have a1 : w0.fs .dat = some df := by rw [hw0]; simpa [World.tick] using hd
      have a2 : w0.fs .log = none := by rw [hw0]; simpa [World.tick] using hlog
      have a3 : w0.fs .key = some (FileSt.clean []) := by rw [hw0]; simp
      clear hw0
      have hM : ∀ {P : Fs → Prop} x (w' : World), Tame σ P x w' → Mannered σ x w' := fun x w' h => ⟨h.1, h.2.1, h.2.2.1⟩
      refine wp_conseq (X := Tame σ (fun _ => True)) ?_ (Q := fun _ w' => Has [.dat, .key, .log] w'.fs ∧ w'.fs .dat = some df) ?_ hM
      · apply wp_bind
        refine wp_rp (R := fun _ => True) (by unfold assert; split <;> trivial) trivial fun _ _ => ?_
        apply wp_bind
        refine wp_fWrite (f := FileSt.clean []) (by exact a3) ?_ (fun x f' hx h => Tame.fault hx h trivial)
        apply wp_bind
        refine dfSync (P := fun _ => True) (by show (w0.fs.set .key _) .key = _; simp; rfl) trivial ?_
        intro w3 e3
        apply wp_bind
        have b1 : w3.fs .log = none := by rw [e3]; simpa [World.tick] using a2
        have b2 : w3.fs .dat = some df := by rw [e3]; simpa [World.tick] using a1
        have b3 : ∃ f, w3.fs .key = some f := by rw [e3]; simp
        refine wp_fCreate b1 ?_ (fun x hx h => ⟨Tame.fault hx h trivial, Tame.fault hx h trivial⟩)
        apply wp_bind
        refine wp_fAppend (f := FileSt.clean []) (by show (w3.fs.set .log _) .log = _; simp) rfl ?_ (fun x f' hx h => Tame.fault hx h trivial)
        refine dfSync (P := fun _ => True) (by show (World.fs _) .log = _; simp [World.tick]; rfl) trivial ?_
        intro w5 e5
        refine ⟨?_, by rw [e5]; simp [World.tick]; exact b2⟩
        intro p hp
        simp only [List.mem_cons, List.not_mem_nil, or_false] at hp
        rw [e5]
        rcases hp with rfl | rfl | rfl
        · simp [World.tick]; exact ⟨_, b2⟩
        · simp [World.tick]; exact b3
        · simp [World.tick]
      intro _ w1 ⟨hs2, hd2⟩
      refine wp_conseq (X := Tame σ (Has [.dat, .key, .log])) ?_ (Q := fun _ _ => True) (fun _ _ h => h) hM
      apply wp_bind
      refine wp_post (Q := fun _ w' => Has [.dat, .key, .log] w'.fs ∧ w'.fs .dat = some df) ?_ ?_
      · unfold rekeyAlloc
        apply wp_bind
        refine wp_rp (R := fun _ => True) ?_ hs2 fun blk _ => ?_
        · unfold keyHeaderBlock
          have e : (putKeyHeader kh).length = 104 := rfl
          exact rp_poke (by rw [e, zeros_length, hbs]; omega) trivial
        obtain ⟨kf, hk2⟩ := hs2.key
        apply wp_bind
        refine dfWrite hk2 hs2 ?_
        intro w2 e2
        have hs3 : Has [.dat, .key, .log] w2.fs := by rw [e2]; exact hs2.set _ _
        obtain ⟨kf, hk3⟩ := hs3.key
        apply wp_bind
        refine dfSync hk3 hs3 ?_
        intro w3 e3
        have hs4 : Has [.dat, .key, .log] w3.fs := by rw [e3]; exact hs3.set _ _
        obtain ⟨kf, hk4⟩ := hs4.key
        apply wp_bind
        refine dfWrite hk4 hs4 ?_
        intro w4 e4
        have hs5 : Has [.dat, .key, .log] w4.fs := by rw [e4]; exact hs4.set _ _
        obtain ⟨kf, hk5⟩ := hs5.key
        refine dfSync hk5 hs5 ?_
        intro w5 e5
        refine ⟨by rw [e5]; exact hs5.set _ _, ?_⟩
        rw [e5, e4, e3, e2]
        simpa using hd2
      intro _ w2 ⟨hs3, hd3⟩
      apply wp_bind
      apply wp_emit
      apply wp_bind
      refine wp_post (drekeyChunks (by rw [hbs]; exact hc) _ _ _ _ ⟨rfl, df, by exact hd3, rfl⟩ (by exact hs3)) ?_
      intro dw w3 ⟨g1, g2⟩
      apply wp_bind
      refine dflush g1 g2 ?_
      intro dw' w4 _ _ o4
      obtain ⟨l, hl⟩ := (o4.has g2).log
      exact wp_fErase hl trivial (fun x hx h => Tame.fault hx h (o4.has g2))
    · intro x hx hf
      exact hfail x _ hx hf

end

end NuDB
