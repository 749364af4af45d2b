import Verif.Props.Full
import Verif.Props.Total
import Verif.Proof.HeapCommit
/-
C57: `commit` uses memory as the other properties assume. `Model/Heap` has the blocks of the caches, the buffers
and the write buffer as memory, bucket objects that remember counters next to it, and streams that write without
tests. It does the same as `Model/Store`, in which all of these are values.
-/
namespace NuDB

open Spec

section
variable {c : Cfg} {n : Nat} {short : Prop}

/-- C57: bytes put into a stream of the writer end up where they belong. If no more bytes are written than were
prepared then nothing is stored outside of the buffer. If all of them are written there is no gap: the buffer then
has what it had before (nothing, if it had to be emptied first), followed by the new bytes. -/
theorem C57_stream {w w₁ : Raw.RawWriter} {os : Raw.OStream} {pieces : List Bytes} {needed : Nat} {σ : Schedule} {W W' : World}
    (hw : w.used ≤ w.buf.length) (hp : w.prepare c needed σ W = (.ok (os, w₁), W')) (hn : pieces.flatten.length ≤ needed) :
    ∃ os' w', os.writes w₁ pieces = .ok (os', w') ∧ w'.used ≤ w'.buf.length ∧ w'.pos = w.pos + needed ∧
      (pieces.flatten.length = needed → ∃ old, w'.buf.take w'.used = old ++ pieces.flatten ∧
        (old = w.buf.take w.used ∨ old = [] ∧ w'.offset = w.pos)) := by
  have hl : (List.replicate needed (0 : UInt8)).length = needed := List.length_replicate
  have step : ∃ wa : Raw.RawWriter, wa.used ≤ wa.buf.length ∧ wa.pos = w.pos ∧
      (wa.buf.take wa.used = w.buf.take w.used ∨ wa.used = 0) ∧ (wa.used + needed ≤ wa.buf.length ∨ wa.used = 0) ∧
      (⟨wa.used, 0⟩, { (if needed > wa.buf.length then { wa with buf := c.fresh needed } else wa) with used := wa.used + needed }) = (os, w₁) := by
    unfold Raw.RawWriter.prepare at hp
    by_cases hu : w.used + needed > w.buf.length
    · rw [if_pos hu] at hp
      simp only [bind, M.bind] at hp
      have hpos : ∀ wa : Raw.RawWriter, wa = { w with offset := w.pos, used := 0 } → wa.used ≤ wa.buf.length ∧ wa.pos = w.pos ∧
          (wa.buf.take wa.used = w.buf.take w.used ∨ wa.used = 0) ∧ (wa.used + needed ≤ wa.buf.length ∨ wa.used = 0) := by
        rintro _ rfl
        exact ⟨Nat.zero_le _, rfl, .inr rfl, .inr rfl⟩
      have hfl : ∀ {wa W₁}, w.flush σ W = (.ok wa, W₁) → wa = { w with offset := w.pos, used := 0 } := by
        intro wa W₁ h
        unfold Raw.RawWriter.flush at h
        by_cases hz : w.used ≠ 0
        · rw [if_pos hz, peek_ok (by omega)] at h
          simp only [bind, M.bind, M.lift, M.ret] at h
          split at h
          · cases h; rfl
          · cases h
        · rw [if_neg hz] at h
          cases h
          have hz : w.used = 0 := by omega
          unfold Raw.RawWriter.pos
          cases w
          simp only at hz
          subst hz
          rfl
      cases hf : w.flush σ W with
      | mk r W₁ =>
      rw [hf] at hp
      cases r with
      | error x => cases hp
      | ok wa =>
        obtain ⟨g1, g2, g3, g4⟩ := hpos wa (hfl hf)
        refine ⟨wa, g1, g2, g3, g4, ?_⟩
        simp only [M.ret, Prod.mk.injEq, Except.ok.injEq] at hp
        rw [← hp.1.1, ← hp.1.2]
        split <;> rfl
    · rw [if_neg hu] at hp
      refine ⟨w, hw, rfl, .inl rfl, .inl (by omega), ?_⟩
      simp only [bind, M.bind, M.ret, Prod.mk.injEq, Except.ok.injEq] at hp
      rw [← hp.1.1, ← hp.1.2]
      split <;> rfl
  obtain ⟨wa, h1, h2, h3, h4, h5⟩ := step
  have hf := Raw.prepared (c := c) (a := wa) (b := wa.abs) (bs := List.replicate needed 0) ⟨h1, rfl⟩ (by rw [hl]; exact h4)
  rw [hl] at hf
  dsimp only at hf
  have eu : (if needed > wa.buf.length then { wa with buf := c.fresh needed } else wa : Raw.RawWriter).used = wa.used := by
    split <;> rfl
  rw [eu] at hf
  simp only [Prod.mk.injEq] at h5
  rw [h5.1, h5.2] at hf
  obtain ⟨⟨os', w'⟩, e1, h6⟩ := hf.writes pieces (by simpa using hn)
  simp only [List.nil_append] at h6
  have hb : os'.base = (if needed > wa.abs.cap then { wa.abs with cap := needed, data := [] } else wa.abs : Writer).data.length := by
    have hd := congrArg List.length h6.data
    have := h6.size
    have := h6.base
    have ho : w'.used ≤ w'.buf.length := h6.ok
    dsimp only at *
    rw [List.length_append, List.length_take] at hd
    omega
  have hv : (if needed > wa.abs.cap then { wa.abs with cap := needed, data := [] } else wa.abs : Writer).data = wa.buf.take wa.used := by
    split
    · rename_i hg
      have hg : needed > wa.buf.length := hg
      have : wa.used = 0 := by omega
      rw [this]; rfl
    · rfl
  have ho : (if needed > wa.abs.cap then { wa.abs with cap := needed, data := [] } else wa.abs : Writer).offset = wa.offset := by
    split <;> rfl
  have hoff : w'.offset = wa.offset := h6.offset.trans ho
  have hbase : os'.base = wa.used := by rw [hb, hv, List.length_take]; omega
  have hused : w'.used = wa.used + needed := by
    have := h6.base
    omega
  refine ⟨os', w', e1, h6.ok, ?_, ?_⟩
  · rw [← h2]
    unfold Raw.RawWriter.pos
    omega
  · intro he
    refine ⟨wa.buf.take wa.used, ?_, ?_⟩
    · have hd := h6.data
      have hs := h6.size
      rw [hv] at hd
      rw [← hd]
      congr 1
      omega
    · rcases h3 with h3 | h3
      · exact .inl h3
      · refine .inr ⟨by rw [h3]; rfl, ?_⟩
        rw [← h2, hoff]
        unfold Raw.RawWriter.pos
        omega

/-- C57: a flush does the same with memory as with values, unless it is undefined or fails an assertion with
values. -/
theorem C57_flush {s : Store} {σ : Schedule} {w : World} (hk : ∀ it ∈ s.p1, it.key.length = s.kh.keySize) :
    Raw.rawFlush c s σ w = flush c s σ w ∨ ∃ x w', flush c s σ w = (.error x, w') ∧ (x = .ub ∨ x = .abort) :=
  (Raw.sim_flushStore hk).same σ w

/-- Likewise for `close`. -/
theorem C57_close {s : Store} {σ : Schedule} {w : World} (hk : ∀ it ∈ s.p1, it.key.length = s.kh.keySize) :
    Raw.rawClose c s σ w = close c s σ w ∨ ∃ x w', close c s σ w = (.error x, w') ∧ (x = .ub ∨ x = .abort) :=
  (Raw.sim_close hk).same σ w

/-- The keys in the pool of a store have the right length. -/
theorem lifetime_keys {m : Nat} {s : Store} {fs : Fs} {es : List Change} (hl : Lifetime c n short (.ready m) (some s, fs) es) :
    ∀ it ∈ s.p1, it.key.length = s.kh.keySize := by
  obtain ⟨st, _, cf, all, hcf, rfl, rfl, hR⟩ := lifetime_held hl
  cases hR with
  | opened hS =>
    obtain ⟨Bk, hkh⟩ := hS.kh
    intro it hit
    rw [(hS.pool.each it hit).2.1, hkh]
    rfl
  | failed he hp => rw [hp]; simp

/-- C57: throughout the life of a database, a flush does with memory exactly what it does with values: the same
file operations, the same store, the same error, whatever the environment does and whatever fresh memory contains.
The exception are the assertions on the number of buckets and the size of the data file that C16 is about. -/
theorem C57_memory {m : Nat} {s : Store} {fs : Fs} {es : List Change} {σ : Schedule} {w : World}
    (hl : Lifetime c n short (.ready m) (some s, fs) es) (hm : Mild m short σ .flush (some s)) (hw : w.fs = fs) :
    Raw.rawFlush c s σ w = flush c s σ w ∨
      ∃ w', flush c s σ w = (.error .abort, w') ∧ (2 ^ 32 < s.buckets + s.p1.length ∨ Big w'.fs) := by
  rcases C57_flush (c := c) (σ := σ) (w := w) (lifetime_keys hl) with h | ⟨x, w', h, hx⟩
  · exact .inl h
  · refine .inr ⟨w', ?_⟩
    have := C16_lifetime_partial (op := .flush) hl trivial hm hw (perform_flush_error h)
    rcases this with ⟨rfl, _⟩ | ⟨rfl, ⟨s', hs, hb⟩ | hb⟩
    · rcases hx with hx | hx <;> cases hx
    · cases hs; exact ⟨h, .inl hb⟩
    · exact ⟨h, .inr hb⟩

/-- C57: so there is no undefined behaviour: within these limits, a flush with memory ends with a result, or dies
because the environment kills it. -/
theorem C57_defined {m : Nat} {s : Store} {fs : Fs} {es : List Change} {σ : Schedule} {w w' : World} {x : Exc}
    (hl : Lifetime c n short (.ready m) (some s, fs) es) (hm : Mild m short σ .flush (some s)) (hw : w.fs = fs)
    (hb : s.buckets + s.p1.length ≤ 2 ^ 32) (hd : ¬ Big (flush c s σ w).2.fs)
    (h : Raw.rawFlush c s σ w = (.error x, w')) : x = .crash ∧ Disturbed σ := by
  rcases C57_memory hl hm hw with he | ⟨w₁, he, h1 | h1⟩
  · rw [he] at h
    rcases C16_lifetime_partial (op := .flush) hl trivial hm hw (perform_flush_error h) with h1 | ⟨_, ⟨s', hs, h1⟩ | h1⟩
    · exact h1
    · cases hs; omega
    · rw [h] at hd; exact absurd h1 hd
  · omega
  · rw [he] at hd; exact absurd h1 hd

end

/-- Three pieces are written to a stream for nine bytes of a buffer of four, which had two: the buffer is emptied and
replaced. -/
example : ∃ (w w₁ : Raw.RawWriter) (os : Raw.OStream) (W W' : World), w.used ≤ w.buf.length ∧ w.used = 2 ∧
    w.prepare demoCfg 9 calm W = (.ok (os, w₁), W') ∧ ([[1, 2], [3], [4, 5, 6, 7, 8, 9]] : List Bytes).flatten.length = 9 := by
  refine ⟨⟨.dat, 0, [1, 2, 3, 4], 2⟩, ⟨.dat, 2, demoCfg.fresh 9, 9⟩, ⟨0, 0⟩, ⟨fun _ => some (FileSt.clean []), 0, []⟩, _, by decide, rfl, rfl, rfl⟩

/-- A store with eight values is flushed, and killed at the eleventh file operation: with memory, too. -/
example : ∃ es s w w₁, Lifetime demoCfg 2 False (.ready 104) (some s, w.fs) es ∧
    Mild 104 False (faultAt 11 (.crash 50) w) .flush (some s) ∧ s.p1.length = 8 ∧ s.buckets + s.p1.length ≤ 2 ^ 32 ∧
    ¬ Big (flush demoCfg s (faultAt 11 (.crash 50) w) w).2.fs ∧
    Raw.rawFlush demoCfg s (faultAt 11 (.crash 50) w) w = (.error .crash, w₁) := by
  have h : demoTest demoCfg demoArgs (demoOps.take 9) (fun s w => s.p1.length == 8 && decide (s.buckets ≤ 1000) &&
      crashed (flush demoCfg s (faultAt 11 (.crash 50) w) w) &&
      match (flush demoCfg s (faultAt 11 (.crash 50) w) w).2.fs .dat with
      | some f => decide (f.cur.length ≤ 10000)
      | none => false) = true := by decide +kernel
  obtain ⟨rets, s, w, h1, h2⟩ := demo_test (demoOps_sound 9) h
  simp only [Bool.and_eq_true, beq_iff_eq, decide_eq_true_eq] at h2
  obtain ⟨⟨⟨h2, h3⟩, h4⟩, h5⟩ := h2
  obtain ⟨w₁, h4⟩ := crashed_iff h4
  have hl := C52_starts demo_creatable h1
  have hm : Mild 104 False (faultAt 11 (.crash 50) w) .flush (some s) := ⟨fun h => (by cases h), fun h => h.elim⟩
  refine ⟨_, s, w, w₁, hl, hm, h2, by omega, ?_, ?_⟩
  · rintro ⟨f, hf, hb⟩
    rw [hf] at h5
    simp only [decide_eq_true_eq] at h5
    omega
  · rcases C57_memory (w := w) hl hm rfl with h | ⟨w', h, _⟩
    · rw [h, h4]
    · rw [h4] at h; cases h

/-- The premise of `C57_flush` and of `C57_close`. -/
example : ∃ es s, ∃ w : World, Lifetime demoCfg 2 False (.ready 104) (some s, w.fs) es ∧ s.p1.length = 8 ∧
    (∀ it ∈ s.p1, it.key.length = s.kh.keySize) := by
  obtain ⟨t, s, w, w₁, h1, _, h2, h3, _⟩ := demo_crash
  have hl := C52_starts demo_creatable h1
  exact ⟨_, s, w, hl, h2, lifetime_keys hl⟩

end NuDB
