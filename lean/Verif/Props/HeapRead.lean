import Verif.Props.Heap
import Verif.Props.Bulk
import Verif.Props.Verify
import Verif.Props.Visit
import Verif.Props.Rekey
import Verif.Proof.HeapVerify
/-
C60: the functions that read use memory as the other properties assume. `Model/HeapRead` has streams that point into the
buffer of a reader, which moves and is replaced; buckets that are parts of a larger buffer, with nothing that keeps them from
using what follows; buffers that are used for several purposes, with old content. It does the same as the model in which all
of these are values.
-/
namespace NuDB

open Spec

namespace Spec

/-- Bytes in pieces of these sizes. -/
def cuts : List Nat → Bytes → List Bytes
  | [], _ => []
  | n :: ns, bs => bs.take n :: cuts ns (bs.drop n)

/-- What requests for fields of these sizes, starting at `pos`, should return for the file content `F` up to `last`: the next
bytes, in pieces, or nothing if there are not enough of them. -/
def fields (F : Bytes) (last : Nat) : Nat → List (List Nat) → List (Option (List Bytes))
  | _, [] => []
  | pos, ns :: l =>
    if pos + ns.sum ≤ last then some (cuts ns (F.drop pos)) :: fields F last (pos + ns.sum) l
    else none :: fields F last pos l

/-- Reading fields of these sizes from a stream of the reader. -/
def readFields (r : Raw.RawReader) : List Nat → Raw.IStream → Res (List Bytes)
  | [], _ => .ok []
  | n :: ns, is => do
    let (bs, is) ← r.field is n
    let l ← readFields r ns is
    return bs :: l

/-- A sequence of requests to a reader: each prepares a stream for some fields and reads them. A request that reports
`short_read` is answered by `none`. -/
def streams (c : Cfg) : List (List Nat) → Raw.RawReader → M (List (Option (List Bytes)))
  | [], _ => M.ret []
  | ns :: l, r => do
    match ← M.attempt (r.prepare c ns.sum) with
    | .ok (is, r) => do
      let bs ← M.lift (readFields r ns is)
      let t ← streams c l r
      M.ret (some bs :: t)
    | .error .short_read => do
      let t ← streams c l r
      M.ret (none :: t)
    | .error e => M.fail e

/-- The code executed for a call, with memory (see `perform`). -/
def performMem (c : Cfg) : Op → Option Store → M (Option Store × Ret)
  | .insert k v, some s => do
    match ← M.attempt (Raw.rawInsert c s k v) with
    | .ok s' => M.ret (some s', .done)
    | .error e => M.ret (some s, .error e)
  | .fetch k, some s => do
    match ← M.attempt (Raw.rawFetch c s k) with
    | .ok v => M.ret (some s, .found v)
    | .error e => M.ret (some s, .error e)
  | .flush, some s => do
    let s' ← Raw.rawFlush c s
    match s'.ec with
    | none => M.ret (some s', .done)
    | some e => M.ret (some s', .error e)
  | .close, some s => do
    match ← Raw.rawClose c s with
    | none => M.ret (none, .done)
    | some e => M.ret (none, .error e)
  | .open, none => do
    match ← M.attempt (Raw.rawOpen c) with
    | .ok s => M.ret (some s, .done)
    | .error e => M.ret (none, .error e)
  | _, _ => M.raise .abort

end Spec

theorem Raw.wp_sim {R : α → β → Prop} {m : M α} {m' : M β} {σ : Schedule} {Q : β → World → Prop} {X : Exc → World → Prop} {w : World}
    (h : Raw.Sim R m m') (hw : wp σ m' Q X w) (hx : ∀ x w', x.wrong → ¬ X x w') :
    wp σ m (fun a w' => ∃ b, R a b ∧ Q b w') X w := by
  have := h σ w
  unfold wp at hw ⊢
  split at hw
  · rename_i b w' e
    rw [e] at this
    obtain ⟨a, e', hab⟩ := this
    rw [e']
    exact ⟨b, hab, hw⟩
  · rename_i x w' e
    rw [e] at this
    rcases this with h | h
    · exact absurd hw (hx x w' h)
    · rw [h]; exact hw

theorem Raw.Points.fields {r : Raw.RawReader} (ns : List Nat) : ∀ {is : Raw.IStream} {bs : Bytes}, Raw.Points r is bs → ns.sum ≤ bs.length →
    readFields r ns is = .ok (cuts ns bs) := by
  induction ns with
  | nil => intros; rfl
  | cons n ns ih =>
    intro is bs hp hl
    rw [List.sum_cons] at hl
    obtain ⟨is', h1, h2⟩ := hp.field (n := n) (by omega)
    unfold readFields
    rw [h1]
    show (readFields r ns is' >>= _) = _
    rw [ih h2 (by rw [List.length_drop]; omega)]
    rfl

theorem cuts_take (ns : List Nat) : ∀ {bs : Bytes} {k : Nat}, ns.sum ≤ k → cuts ns (bs.take k) = cuts ns bs := by
  induction ns with
  | nil => intros; rfl
  | cons n ns ih =>
    intro bs k hk
    rw [List.sum_cons] at hk
    unfold cuts
    rw [List.take_take, Nat.min_eq_left (by omega), List.drop_take, ih (by omega)]

theorem wp_streams {c : Cfg} {σ : Schedule} {p : Path} {f : FileSt} {last : Nat} (l : List (List Nat)) :
    ∀ {r : Raw.RawReader} {w : World}, w.fs p = some f → RInv r.abs f.cur → r.path = p → r.last = last →
    wp σ (streams c l r) (fun a w' => a = fields f.cur last r.pos l ∧ w'.fs = w.fs)
      (fun x w' => IsFault x ∧ Faulty σ ∧ w'.fs = w.fs) w := by
  induction l with
  | nil =>
    intro r w _ _ _ _
    exact wp_ret ⟨rfl, rfl⟩
  | cons ns l ih =>
    intro r w hf hr hp hl
    unfold streams
    apply wp_bind
    apply wp_attempt
    refine wp_conseq (Raw.wp_sim (R := fun (x : Raw.IStream × Raw.RawReader) (y : Bytes × Reader) => x.2.abs = y.2 ∧ Raw.Points x.2 x.1 y.1 ∧ y.1.length = ns.sum) (Raw.sim_rprepare rfl)
      (Q := fun (y : Bytes × Reader) w' => w'.fs = w.fs ∧ y.1 = slice f.cur r.pos ns.sum ∧ RNext r.abs y.2 f.cur ns.sum)
      (X := fun x w' => w'.fs = w.fs ∧ (x = .err .short_read ∧ r.pos + ns.sum > r.last ∨ IsFault x ∧ Faulty σ)) ?_ ?_) ?_ ?_
    · apply wp_prepare (f := f) (by show w.fs r.path = some f; rw [hp]; exact hf) hr
      · intro r' w' h1 h2 _
        exact ⟨h2, rfl, h1⟩
      · intro h; exact ⟨rfl, .inl ⟨rfl, h⟩⟩
      · intro x hx hfa _ _; exact ⟨rfl, .inr ⟨hx, hfa⟩⟩
    · rintro x w' (rfl | rfl) ⟨_, ⟨h, _⟩ | ⟨h | h, _⟩⟩ <;> cases h
    · rintro ⟨is, r1⟩ w1 ⟨⟨bs, r1'⟩, ⟨e1, e2, e3⟩, e4, e5, e6⟩
      dsimp only at e1 e2 e3 e4 e5 e6 ⊢
      subst e1
      apply wp_bind
      apply wp_lift_ok (e2.fields ns (Nat.le_of_eq e3.symm))
      apply wp_bind
      have hpos : r1.pos = r.pos + ns.sum := e6.pos
      have hle : r.pos + ns.sum ≤ r.last := e6.le
      refine wp_conseq (ih (by rw [e4]; exact hf) e6.inv (e6.path.trans hp) (e6.last.trans hl)) ?_ ?_
      · rintro t w2 ⟨g1, g2⟩
        apply wp_ret
        refine ⟨?_, g2.trans e4⟩
        unfold fields
        rw [if_pos (by omega), g1, hpos, e5]
        unfold slice
        rw [cuts_take ns (Nat.le_refl _)]
      · rintro x w2 ⟨g1, g2, g3⟩
        exact ⟨g1, g2, g3.trans e4⟩
    · rintro x w1 ⟨e, ⟨rfl, h⟩ | ⟨rfl | rfl, h⟩⟩
      · apply wp_bind
        refine wp_conseq (ih (by rw [e]; exact hf) hr hp hl) ?_ ?_
        · rintro t w2 ⟨g1, g2⟩
          apply wp_ret
          refine ⟨?_, g2.trans e⟩
          unfold fields
          rw [if_neg (by omega), g1]
        · rintro x w2 ⟨g1, g2, g3⟩
          exact ⟨g1, g2, g3.trans e⟩
      · exact ⟨.inl rfl, h, e⟩
      · exact ⟨.inr rfl, h, e⟩

section
variable {c : Cfg} {n : Nat} {short : Prop}

/-- C60, streams: for every size of the buffer, and every sequence of requests for streams with fields of any sizes, reading
the fields through the stream yields the bytes of the file in order. (A stream points into the buffer, which the next request
may change or replace.) No read is outside of the buffer or through an old pointer: nothing else happens unless a file
operation is disturbed. -/
theorem C60_stream (c : Cfg) {p : Path} {f : FileSt} {w w' : World} {σ : Schedule} (offset last bufferSize : Nat)
    (l : List (List Nat)) (hf : w.fs p = some f) (hl : last ≤ f.cur.length) (ho : offset ≤ last)
    {res : Except Exc (List (Option (List Bytes)))}
    (h : streams c l (Raw.RawReader.new c p offset last bufferSize) σ w = (res, w')) :
    w'.fs = w.fs ∧ (res = .ok (fields f.cur last offset l) ∨ (Disturbed σ ∧ (res = .error .crash ∨ res = .error (.err .io)))) := by
  have key := wp_run (wp_streams (c := c) (σ := σ) l hf (by rw [Raw.abs_new]; exact rinv_new c p (n := bufferSize) hl ho) rfl rfl) h
  cases res with
  | ok a => exact ⟨key.2, .inl (congrArg _ key.1)⟩
  | error x =>
    obtain ⟨h1, h2, h3⟩ := key
    refine ⟨h3, .inr ⟨h2, ?_⟩⟩
    rcases h1 with rfl | rfl
    · exact .inl rfl
    · exact .inr rfl

/-- C60: `visit` for any files and callbacks. -/
theorem C60_visit {cb : List Event → Option Err} {σ : Schedule} {w : World} :
    Raw.rawVisit c cb σ w = visit c cb σ w ∨ ∃ x w', visit c cb σ w = (.error x, w') ∧ (x = .ub ∨ x = .abort) :=
  Raw.sim_visit.same σ w

/-- C60: `recover` for any files. -/
theorem C60_recover {σ : Schedule} {w : World} :
    Raw.rawRecover c σ w = recover c σ w ∨ ∃ x w', recover c σ w = (.error x, w') ∧ (x = .ub ∨ x = .abort) :=
  Raw.sim_recover.same σ w

/-- C60: `open` for any files. -/
theorem C60_open {σ : Schedule} {w : World} :
    Raw.rawOpen c σ w = openStore c σ w ∨ ∃ x w', openStore c σ w = (.error x, w') ∧ (x = .ub ∨ x = .abort) :=
  Raw.sim_open.same σ w

/-- C60: `fetch` for any store and files. -/
theorem C60_fetch {s : Store} {key : Bytes} {σ : Schedule} {w : World} :
    Raw.rawFetch c s key σ w = fetch c s key σ w ∨ ∃ x w', fetch c s key σ w = (.error x, w') ∧ (x = .ub ∨ x = .abort) :=
  Raw.sim_fetch.same σ w

/-- C60: `insert` for any store and files. -/
theorem C60_insert {s : Store} {key data : Bytes} {σ : Schedule} {w : World} :
    Raw.rawInsert c s key data σ w = insert c s key data σ w ∨
      ∃ x w', insert c s key data σ w = (.error x, w') ∧ (x = .ub ∨ x = .abort) :=
  Raw.sim_storeInsert.same σ w

/-- C60: `rekey` for any arguments and files. -/
theorem C60_rekey {a : RekeyArgs} {σ : Schedule} {w : World} :
    Raw.rawRekey c a σ w = rekey c a σ w ∨ ∃ x w', rekey c a σ w = (.error x, w') ∧ (x = .ub ∨ x = .abort) :=
  Raw.sim_rekey.same σ w

/-- C60: `verify` for any buffer size and files. -/
theorem C60_verify {k : Nat} {σ : Schedule} {w : World} :
    Raw.rawVerify c k σ w = verify c k σ w ∨ ∃ x w', verify c k σ w = (.error x, w') ∧ (x = .ub ∨ x = .abort) :=
  Raw.sim_verify.same σ w

theorem Raw.sim_perform {op : Op} {so : Option Store} (hk : ∀ s, so = some s → ∀ it ∈ s.p1, it.key.length = s.kh.keySize) :
    Raw.Sim Eq (performMem c op so) (perform c op so) := by
  have att : ∀ {α : Type} {m m' : M α} {k k' : Except Err α → M (Option Store × Ret)}, Raw.Sim Eq m m' →
      (∀ x, Raw.Sim Eq (k x) (k' x)) → Raw.Sim Eq (M.attempt m >>= k) (M.attempt m' >>= k') := by
    intro α m m' k k' h hk
    refine Raw.Sim.bind h.attempt ?_
    rintro (x | a) (y | b) hab
    · cases hab; exact hk _
    · exact hab.elim
    · exact hab.elim
    · cases hab; exact hk _
  cases so with
  | none =>
    cases op with
    | «open» => exact att Raw.sim_open (fun x => Raw.Sim.refl _)
    | _ => exact Raw.Sim.raise
  | some s =>
    cases op with
    | insert k v => exact att Raw.sim_storeInsert (fun x => Raw.Sim.refl _)
    | fetch k => exact att Raw.sim_fetch (fun x => Raw.Sim.refl _)
    | flush => exact Raw.Sim.bind (Raw.sim_flushStore (hk s rfl)) (fun a _ e => e ▸ Raw.Sim.refl _)
    | close => exact Raw.Sim.bind (Raw.sim_close (hk s rfl)) (fun a _ e => e ▸ Raw.Sim.refl _)
    | «open» => exact Raw.Sim.raise

/-- C60, calls: over the whole life of a database, every call does with memory what it does with values, unless it ends with one
of the assertions of C16. -/
theorem C60_calls {m : Nat} {so : Option Store} {fs : Fs} {es : List Change} {op : Op} {σ : Schedule} {w : World}
    (hl : Lifetime c n short (.ready m) (so, fs) es) (ha : Allowed n op so) (hm : Mild m short σ op so) (hw : w.fs = fs) :
    performMem c op so σ w = perform c op so σ w ∨
      ∃ w', perform c op so σ w = (.error .abort, w') ∧ ((∃ s, so = some s ∧ 2 ^ 32 < s.buckets + s.p1.length) ∨ Big w'.fs) := by
  have hk : ∀ s, so = some s → ∀ it ∈ s.p1, it.key.length = s.kh.keySize := by
    rintro s rfl
    exact lifetime_keys hl
  rcases (Raw.sim_perform (c := c) (op := op) hk).same σ w with h | ⟨x, w', h, hx⟩
  · exact .inl h
  · refine .inr ⟨w', ?_⟩
    rcases C16_lifetime_partial hl ha hm hw h with ⟨rfl, _⟩ | ⟨rfl, hb⟩
    · rcases hx with hx | hx <;> cases hx
    · exact ⟨h, hb⟩

/-- C60, calls: with memory, too, a call ends with nothing but a crash or an assertion of C16. -/
theorem C60_defined {m : Nat} {so : Option Store} {fs : Fs} {es : List Change} {op : Op} {σ : Schedule} {w w' : World} {x : Exc}
    (hl : Lifetime c n short (.ready m) (so, fs) es) (ha : Allowed n op so) (hm : Mild m short σ op so) (hw : w.fs = fs)
    (hb : ∀ s, so = some s → s.buckets + s.p1.length ≤ 2 ^ 32) (hd : ¬ Big (perform c op so σ w).2.fs)
    (h : performMem c op so σ w = (.error x, w')) : x = .crash ∧ Disturbed σ := by
  rcases C60_calls hl ha hm hw with he | ⟨w₁, he, ⟨s, hs, h1⟩ | h1⟩
  · rw [he] at h
    rcases C16_lifetime_partial hl ha hm hw h with h1 | ⟨_, ⟨s, hs, h1⟩ | h1⟩
    · exact h1
    · have := hb s hs; omega
    · rw [h] at hd; exact absurd h1 hd
  · have := hb s hs; omega
  · rw [he] at hd; exact absurd h1 hd

/-- C60, `rekey` of a database: the same, unless an offset reaches 2^48. -/
theorem C60_rekeyed {fs : Fs} {es : List Change} {D : Bytes} {a : RekeyArgs} {lf : Nat} {σ : Schedule} {w : World}
    (hl : Lifetime c n short .keyless (none, fs) es) (hD : bytesOf fs .dat = some D) (hra : Rekeyable a lf) (hw : w.fs = fs)
    (hs : D.length * (a.blockSize + 9) + 8 < 2 ^ 48) : Raw.rawRekey c a σ w = rekey c a σ w := by
  rcases C60_rekey (c := c) (a := a) (σ := σ) (w := w) with h | ⟨x, w', h, hx⟩
  · exact h
  · rcases C16_rekey_partial hl hD hra hw h with ⟨rfl | rfl, _⟩ | ⟨_, hb⟩
    · rcases hx with hx | hx <;> cases hx
    · rcases hx with hx | hx <;> cases hx
    · omega

/-- C60, `recover` of a database, which may be interrupted any number of times: the same. -/
theorem C60_recovered {a : CreateArgs} {lf : Nat} {t : List Label} {fs : Fs} {σ : Schedule} {w : World} (hc : Creatable a lf)
    (hr : Reachable c a short t (none, fs)) (hσ : (∀ i k, σ i ≠ .fail k) ∨ short) (hw : w.fs = fs) :
    Raw.rawRecover c σ w = recover c σ w := by
  rcases C60_recover (c := c) (σ := σ) (w := w) with h | ⟨x, w', h, hx⟩
  · exact h
  · rcases C16_recover hc hr hσ hw h with ⟨rfl | rfl, _⟩ <;> rcases hx with hx | hx <;> cases hx

/-- C60, `visit` of a data file, if no file operation is disturbed: the same. -/
theorem C60_visited {ks : Nat} {rs : List Record} {f : FileSt} {w : World} {σ : Schedule} (hf : w.fs .dat = some f)
    (hd : DataFile ks f.cur rs) (hσ : ¬ Disturbed σ) :
    Raw.rawVisit c (fun _ => none) σ w = visit c (fun _ => none) σ w := by
  rcases C60_visit (c := c) (cb := fun _ => none) (σ := σ) (w := w) with h | ⟨x, w', h, hx⟩
  · exact h
  · rcases (C27_visit hf hd h).2 with ⟨h, _⟩ | ⟨h, _⟩
    · cases h
    · exact absurd h hσ

/-- C60, `verify` of a database: it succeeds with memory, too, with the right counts (under the conditions of C33). -/
theorem C60_verified {a : CreateArgs} {lf : Nat} {t : List Label} {fs : Fs} {m : Map} {D K : Bytes} (k : Nat) (hc : Creatable a lf)
    (hr : Reachable c a short t (none, fs)) (hl : fs .log = none) (hm : Answers c a.keySize fs m)
    (hD : bytesOf fs .dat = some D) (hK : bytesOf fs .key = some K) :
    ∃ rs cs, Conforms c.H a lf D K m rs cs ∧ (116 ≤ a.blockSize ∨ overflows rs = [] ∨ k < 2 * a.blockSize + 8 →
      ∃ info w', Raw.rawVerify c k calm ⟨fs, 0, []⟩ = (.ok info, w') ∧ w'.fs = fs ∧ Counted rs cs info) := by
  obtain ⟨rs, cs, h1, h2⟩ := C33_accepts_partial k hc hr hl hm hD hK
  refine ⟨rs, cs, h1, fun hb => ?_⟩
  obtain ⟨info, w', h3, h4⟩ := h2 hb
  refine ⟨info, w', ?_, h4⟩
  rcases C60_verify (c := c) (k := k) (σ := calm) (w := ⟨fs, 0, []⟩) with h | ⟨x, w₁, h, _⟩
  · rw [h, h3]
  · rw [h3] at h; cases h

end

/-- Requests for streams of several fields; the buffer of three bytes is replaced by one of four, then of five. -/
example : bulkWorld.fs .dat = some (FileSt.clean [0, 1, 2, 3, 4, 5, 6, 7, 8, 9]) ∧
    (streams bulkCfg [[1, 1], [], [2, 0, 2], [9], [1, 2, 1, 1], [1]] (Raw.RawReader.new bulkCfg .dat 0 10 3) calm bulkWorld).1.toOption =
      some [some [[0], [1]], some [], some [[2, 3], [], [4, 5]], none, none, some [[6]]] := by
  decide +kernel

/-- Pointers from before the next request are of no use: the stream of the first request, read after the second one. If the buffer
was replaced the read is undefined; if not, the content has changed. -/
example :
    (∃ is r w is₂ r₂ w₂, (Raw.RawReader.new bulkCfg .dat 0 10 3).prepare bulkCfg 2 calm bulkWorld = (.ok (is, r), w) ∧
      readFields r [2] is = .ok [[0, 1]] ∧
      r.prepare bulkCfg 4 calm w = (.ok (is₂, r₂), w₂) ∧ readFields r₂ [2] is = .error .ub) ∧
    (∃ is r w is₂ r₂ w₂, (Raw.RawReader.new bulkCfg .dat 0 10 3).prepare bulkCfg 2 calm bulkWorld = (.ok (is, r), w) ∧
      r.prepare bulkCfg 3 calm w = (.ok (is₂, r₂), w₂) ∧ readFields r₂ [2] is = .ok [[2, 3]]) :=
  ⟨⟨_, _, _, _, _, _, rfl, rfl, rfl, rfl⟩, ⟨_, _, _, _, _, _, rfl, rfl, rfl⟩⟩

/-- The premises of `C60_calls` and `C60_defined`: a store with eight values is flushed, and dies; the call with memory, too. -/
example : ∃ es s w w₁, Lifetime demoCfg 2 False (.ready 104) (some s, w.fs) es ∧ Allowed 2 .flush (some s) ∧
    Mild 104 False (faultAt 11 (.crash 50) w) .flush (some s) ∧ s.p1.length = 8 ∧
    (∀ s', some s = some s' → s'.buckets + s'.p1.length ≤ 2 ^ 32) ∧
    ¬ Big (perform demoCfg .flush (some s) (faultAt 11 (.crash 50) w) w).2.fs ∧
    performMem demoCfg .flush (some s) (faultAt 11 (.crash 50) w) w = (.error .crash, w₁) := by
  have h : demoTest demoCfg demoArgs (demoOps.take 9) (fun s w => s.p1.length == 8 && decide (s.buckets ≤ 1000) &&
      crashed (flush demoCfg s (faultAt 11 (.crash 50) w) w) &&
      match (flush demoCfg s (faultAt 11 (.crash 50) w) w).2.fs .dat with
      | some f => decide (f.cur.length ≤ 10000)
      | none => false) = true := by decide +kernel
  obtain ⟨rets, s, w, h1, h2⟩ := demo_test (demoOps_sound 9) h
  simp only [Bool.and_eq_true, beq_iff_eq, decide_eq_true_eq] at h2
  obtain ⟨⟨⟨h2, h3⟩, h4⟩, h5⟩ := h2
  obtain ⟨w₁, h4⟩ := crashed_iff h4
  have hl := C52_starts demo_creatable h1
  have hm : Mild 104 False (faultAt 11 (.crash 50) w) .flush (some s) := ⟨fun h => (by cases h), fun h => h.elim⟩
  have hp := perform_flush_error h4
  refine ⟨_, s, w, w₁, hl, trivial, hm, h2, ?_, ?_, ?_⟩
  · rintro s' e; cases e; omega
  · rw [hp]
    rw [h4] at h5
    rintro ⟨f, hf, hb⟩
    dsimp only at h5 hf
    rw [hf] at h5
    simp only [decide_eq_true_eq] at h5
    omega
  · rcases C60_calls (w := w) hl (op := .flush) trivial hm rfl with h | ⟨w', h, _⟩
    · rw [h, hp]
    · rw [hp] at h; cases h

/-- The premises of `C60_rekeyed`. -/
example : ∃ fs es D, ∃ w : World, Lifetime demoCfg 2 False .keyless (none, fs) es ∧ bytesOf fs .dat = some D ∧
    Rekeyable demoRekey 49152 ∧ w.fs = fs ∧ D.length * (demoRekey.blockSize + 9) + 8 < 2 ^ 48 ∧ D.length = 386 := by
  obtain ⟨t, fs, m, D, K, h1, h2, h3, h4, h5, h6, h7, h8, _⟩ := demo_spilled
  refine ⟨fs.set .key none, _, D, ⟨_, 0, []⟩, (C52_starts demo_creatable h1).removed h2, ?_, demo_rekeyable, rfl, ?_, h7⟩
  · exact h4
  · rw [h7]; decide

/-- The premises of `C60_recovered`: a flush died; `recover` with memory dies, too. -/
example : ∃ t fs w w₁ σ, Creatable demoArgs 32768 ∧ Reachable demoCfg demoArgs False t (none, fs) ∧
    (∀ i k, σ i ≠ .fail k) ∧ w.fs = fs ∧ Raw.rawRecover demoCfg σ w = (.error .crash, w₁) := by
  obtain ⟨t, s, w, w₁, h1, h2, h3, h4, w₂, h5⟩ := demo_crash
  have hr := reachable_died h1 h4
  have hσ : ∀ i k, faultAt 9 (.crash 0) w₁ i ≠ .fail k := by intro i k; unfold faultAt; split <;> simp
  refine ⟨_, w₁.fs, w₁, w₂, _, demo_creatable, hr, hσ, rfl, ?_⟩
  rw [C60_recovered demo_creatable hr (.inl hσ) rfl]
  exact h5

/-- The premises of `C60_visited` and of `C60_verified`. -/
example : ∃ t fs m D K f, Reachable demoCfg demoArgs False t (none, fs) ∧ fs .log = none ∧
    Answers demoCfg demoArgs.keySize fs m ∧ bytesOf fs .dat = some D ∧ bytesOf fs .key = some K ∧
    fs .dat = some f ∧ DataFile demoArgs.keySize f.cur (spilledRecords D) ∧ D.length = 386 ∧ ¬ Disturbed calm := by
  obtain ⟨t, fs, m, D, K, h1, h2, h3, h4, h5, h6, h7, h8, _⟩ := demo_spilled
  cases hf : fs .dat with
  | none => rw [bytesOf, hf] at h4; cases h4
  | some f =>
    have e : f.cur = D := by rw [bytesOf, hf] at h4; simpa using h4
    exact ⟨t, fs, m, D, K, f, h1, h2, h3, h4, h5, hf, e ▸ h6, h7, not_faulty_calm⟩

end NuDB
