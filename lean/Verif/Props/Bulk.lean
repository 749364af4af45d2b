import Verif.Proof.BulkIO
import Verif.Spec.History
/-
C39: buffered sequential reading and writing.
-/
namespace NuDB

open Spec

namespace Spec

/-- What requests for `ns` bytes each, starting at `pos`, should return for the file content
`F` up to `last`: the next bytes, or nothing if there are not enough of them. -/
def pieces (F : Bytes) (last : Nat) : Nat → List Nat → List (Option Bytes)
  | _, [] => []
  | pos, n :: ns =>
    if pos + n ≤ last then some ((F.drop pos).take n) :: pieces F last (pos + n) ns
    else none :: pieces F last pos ns

/-- The position after these requests. -/
def consumed (last : Nat) : Nat → List Nat → Nat
  | pos, [] => pos
  | pos, n :: ns => if pos + n ≤ last then consumed last (pos + n) ns else consumed last pos ns

/-- A sequence of requests to a reader; a request that reports `short_read` is answered by
`none`. -/
def requests (c : Cfg) : List Nat → Reader → M (List (Option Bytes) × Reader)
  | [], r => M.ret ([], r)
  | n :: ns, r => do
    match ← M.attempt (r.prepare c n) with
    | .ok (bs, r) => do
      let (l, r) ← requests c ns r
      M.ret (some bs :: l, r)
    | .error .short_read => do
      let (l, r) ← requests c ns r
      M.ret (none :: l, r)
    | .error e => M.fail e

/-- A sequence of pieces given to a writer and a final flush; the positions reported before
each piece are recorded. -/
def emissions : List Bytes → Writer → M (List Nat × Writer)
  | [], wr => do
    let wr ← wr.flush
    M.ret ([], wr)
  | b :: bs, wr => do
    let n := wr.pos
    let wr ← wr.append b
    let (l, wr) ← emissions bs wr
    M.ret (n :: l, wr)

/-- Positions of consecutive pieces. -/
def offsets : Nat → List Bytes → List Nat
  | _, [] => []
  | n, b :: bs => n :: offsets (n + b.length) bs

end Spec

theorem wp_run {σ : Schedule} {m : M α} {Q : α → World → Prop} {X : Exc → World → Prop} {w w' : World}
    {r : Except Exc α} (h : wp σ m Q X w) (e : m σ w = (r, w')) :
    match r with
    | .ok a => Q a w'
    | .error x => X x w' := by
  unfold wp at h
  rw [e] at h
  cases r <;> exact h

theorem wp_requests {c : Cfg} {σ : Schedule} {p : Path} {f : FileSt} {last : Nat} (ns : List Nat) :
    ∀ {r : Reader} {w : World}, w.fs p = some f → RInv r f.cur → r.path = p → r.last = last →
    wp σ (requests c ns r)
      (fun a w' => a.1 = pieces f.cur last r.pos ns ∧ a.2.pos = consumed last r.pos ns ∧
        a.2.last = last ∧ w'.fs = w.fs)
      (fun x w' => IsFault x ∧ Faulty σ ∧ w'.fs = w.fs) w := by
  induction ns with
  | nil =>
    intro r w _ _ _ hl
    exact wp_ret ⟨rfl, rfl, hl, rfl⟩
  | cons n ns ih =>
    intro r w hf hr hp hl
    unfold requests
    apply wp_bind
    apply wp_attempt
    apply wp_prepare (f := f) (by rw [hp]; exact hf) hr
    · intro r' w' h1 h2 _
      simp only
      apply wp_bind
      have hle := h1.le
      refine wp_conseq (ih (by rw [h2]; exact hf) h1.inv (h1.path.trans hp) (h1.last.trans hl)) ?_ ?_
      · rintro ⟨l, r2⟩ w2 ⟨e1, e2, e3, e4⟩
        apply wp_ret
        simp only at e1 e2 e3
        rw [h1.pos] at e1 e2
        refine ⟨?_, ?_, e3, e4.trans h2⟩
        · simp only [pieces]; rw [if_pos (by omega), e1]; rfl
        · simp only [consumed]; rw [if_pos (by omega), e2]
      · rintro x w2 ⟨e1, e2, e3⟩
        exact ⟨e1, e2, e3.trans h2⟩
    · intro hgt
      simp only
      apply wp_bind
      refine wp_conseq (ih hf hr hp hl) ?_ ?_
      · rintro ⟨l, r2⟩ w2 ⟨e1, e2, e3, e4⟩
        apply wp_ret
        simp only at e1 e2 e3
        refine ⟨?_, ?_, e3, e4⟩
        · simp only [pieces]; rw [if_neg (by omega), e1]
        · simp only [consumed]; rw [if_neg (by omega), e2]
      · rintro x w2 h
        exact h
    · rintro x (rfl | rfl) hfa _ _
      · exact ⟨.inl rfl, hfa, rfl⟩
      · exact ⟨.inr rfl, hfa, rfl⟩

/-- C39, reading: for every buffer size and every sequence of request sizes the reader returns
the bytes of the file in order; a request fails exactly if it goes past the end; `eof` tells
whether the end was reached. Nothing else happens unless a file operation is disturbed. -/
theorem C39_read (c : Cfg) {p : Path} {f : FileSt} {w w' : World} {σ : Schedule} (offset last bufferSize : Nat)
    (ns : List Nat) (hf : w.fs p = some f) (hl : last ≤ f.cur.length) (ho : offset ≤ last)
    {res : Except Exc (List (Option Bytes) × Reader)}
    (h : requests c ns (Reader.new c p offset last bufferSize) σ w = (res, w')) :
    w'.fs = w.fs ∧
    ((∃ r, res = .ok (pieces f.cur last offset ns, r) ∧
        (r.eof = true ↔ consumed last offset ns = last) ∧ consumed last offset ns ≤ last) ∨
      (Disturbed σ ∧ (res = .error .crash ∨ res = .error (.err .io)))) := by
  have key := wp_run (wp_requests (c := c) (σ := σ) ns hf (rinv_new c p (n := bufferSize) hl ho) rfl rfl) h
  have hle : ∀ ns o, o ≤ last → consumed last o ns ≤ last := by
    intro ns
    induction ns with
    | nil => intro o h; exact h
    | cons n ns ih =>
      intro o h
      simp only [consumed]
      split
      · rename_i h'; exact ih _ h'
      · exact ih _ h
  cases res with
  | ok a =>
    obtain ⟨l, r⟩ := a
    obtain ⟨e1, e2, e3, e4⟩ := key
    refine ⟨e4, .inl ⟨r, by rw [show l = _ from e1]; rfl, ?_, hle _ _ ho⟩⟩
    have e2 : r.pos = consumed last offset ns := e2
    have e3 : r.last = last := e3
    have := hle ns _ ho
    simp only [Reader.eof, e2, e3, ge_iff_le, decide_eq_true_eq]
    omega
  | error x =>
    obtain ⟨e1, e2, e3⟩ := key
    refine ⟨e3, .inr ⟨e2, ?_⟩⟩
    rcases e1 with rfl | rfl
    · exact .inl rfl
    · exact .inr rfl

theorem wp_emissions {σ : Schedule} {p : Path} {A : Bytes → Prop} {P : Fs → Prop} (hA : Appendable p A P)
    (bs : List Bytes) : ∀ {wr : Writer} {w : World} {V : Bytes}, WInv0 wr p w.fs V → P w.fs → A (V ++ bs.flatten) →
    wp σ (emissions bs wr)
      (fun a w' => a.1 = offsets V.length bs ∧ (∃ f', w'.fs p = some f' ∧ f'.cur = V ++ bs.flatten) ∧
        P w'.fs ∧ SameExcept p w.fs w'.fs)
      (XP σ P True True) w := by
  induction bs with
  | nil =>
    intro wr w V hw hP hV
    unfold emissions
    apply wp_bind
    apply wp_wflush0 hw hP hA (by simpa using hV)
    intro wr' w' h1 h2 _ h3 h4 _
    apply wp_ret
    obtain ⟨f', g1, g2, _⟩ := h1.file
    refine ⟨rfl, ⟨f', g1, ?_⟩, h3, h4⟩
    rw [h2] at g2
    simpa using g2
  | cons b bs ih =>
    intro wr w V hw hP hV
    unfold emissions
    apply wp_bind
    apply wp_wappend0 hw hP hA (hA.prefix_closed _ _ hV)
    intro wr' w' h1 _ h3 h4 _
    apply wp_bind
    refine wp_conseq (ih h1 h3 (by simpa using hV)) ?_ (fun _ _ h => h)
    rintro ⟨l, wr2⟩ w2 ⟨e1, e2, e3, e4⟩
    apply wp_ret
    refine ⟨?_, by simpa using e2, e3, h4.trans e4⟩
    simp only at e1
    rw [e1, hw.pos]
    simp [offsets]

/-- C39, writing: for every buffer size and every sequence of pieces, writing them through the
sequential writer and flushing leaves their concatenation behind the former content; the
writer reports the position at which each piece is found. If a file operation is disturbed the
file holds the former content and a prefix of the concatenation. Other files do not change. -/
theorem C39_write {p : Path} {f : FileSt} {w w' : World} {σ : Schedule} (bufferSize : Nat)
    (bs : List Bytes) (hf : w.fs p = some f) {res : Except Exc (List Nat × Writer)}
    (h : emissions bs (Writer.new p f.cur.length bufferSize) σ w = (res, w')) :
    (∀ q, q ≠ p → w'.fs q = w.fs q) ∧
    ((∃ wr f', res = .ok (offsets f.cur.length bs, wr) ∧ w'.fs p = some f' ∧ f'.cur = f.cur ++ bs.flatten) ∨
      (Disturbed σ ∧ (res = .error .crash ∨ res = .error (.err .io)) ∧
        ∃ f' done, w'.fs p = some f' ∧ f'.cur = f.cur ++ done ∧ done <+: bs.flatten)) := by
  have hA : Appendable p (fun v => v <+: f.cur ++ bs.flatten)
      (fun fs => (∃ f' done, fs p = some f' ∧ f'.cur = f.cur ++ done ∧ done <+: bs.flatten) ∧
        SameExcept p w.fs fs) := by
    constructor
    · intro a b h
      exact (List.prefix_append _ _).trans h
    · rintro fs g bs' ⟨⟨f', done, h1, h2, h3⟩, hs⟩ hg hp
      rw [h1] at hg; cases hg
      refine ⟨⟨_, done ++ bs', by simp; rfl, ?_, ?_⟩, hs.trans (SameExcept.set _ _ _)⟩
      · rw [cur_push]; simp only [POp.apply, writeAt_end, h2, List.append_assoc]
      · rw [h2, List.append_assoc] at hp
        exact (List.prefix_append_right_inj _).mp hp
  have hw : WInv0 (Writer.new p f.cur.length bufferSize) p w.fs f.cur :=
    ⟨rfl, ⟨f, hf, by simp [Writer.new], rfl⟩, Nat.zero_le _⟩
  have key := wp_run (wp_emissions (σ := σ) hA bs hw
    ⟨⟨f, [], hf, by simp, List.nil_prefix⟩, SameExcept.refl _ _⟩ (List.prefix_refl _)) h
  cases res with
  | ok a =>
    obtain ⟨l, wr⟩ := a
    obtain ⟨e1, ⟨f', e2, e3⟩, e4, e5⟩ := key
    exact ⟨e5, .inl ⟨wr, f', by rw [show l = _ from e1], e2, e3⟩⟩
  | error x =>
    obtain ⟨⟨e1, e2⟩, e3⟩ := key
    refine ⟨e2, .inr ?_⟩
    rcases e3 with ⟨hx, hfa⟩ | h
    · refine ⟨hfa, ?_, e1⟩
      rcases hx with rfl | rfl
      · exact .inl rfl
      · exact .inr rfl
    · exact absurd trivial h.2.1

/-- An environment for the examples. -/
def bulkCfg : Cfg := ⟨fun _ _ => 0, fun _ => 0, id, fun _ => List.Perm.refl _⟩

/-- One file with ten bytes. -/
def bulkWorld : World := ⟨fun _ => some (FileSt.clean [0, 1, 2, 3, 4, 5, 6, 7, 8, 9]), 0, []⟩

/-- Six requests to a reader with a buffer of three bytes; the fourth goes past the end. -/
example : bulkWorld.fs .dat = some (FileSt.clean [0, 1, 2, 3, 4, 5, 6, 7, 8, 9]) ∧
    (requests bulkCfg [2, 0, 4, 5, 1, 1] (Reader.new bulkCfg .dat 1 9 3) calm bulkWorld).1.toOption.map (·.1) =
      some [some [1, 2], some [], some [3, 4, 5, 6], none, some [7], some [8]] := by
  decide +kernel

/-- Four pieces through a buffer of three bytes. -/
example : (let r := emissions [[2], [3, 4, 5, 6], [], [7]] (Writer.new .dat 10 3) calm bulkWorld
    (r.1.toOption.map (·.1), bytesOf r.2.fs .dat)) =
    (some [10, 11, 15, 15], some [0, 1, 2, 3, 4, 5, 6, 7, 8, 9, 2, 3, 4, 5, 6, 7]) := by
  decide +kernel

end NuDB
