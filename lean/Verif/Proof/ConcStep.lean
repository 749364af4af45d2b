import Verif.Proof.ConcInv
/- The invariant of executions with several threads, and its preservation. -/
namespace NuDB

open Spec Conc

/-- The result of a reader's program: it failed by a fault, or it will be `res`. -/
def Outcome (F : Prop) (B : Option (Nat × Bytes)) (D : Bytes) (p : Prog α) (res : Except Exc α) : Prop :=
  (F ∧ p = .raise (.err .io)) ∨ eval B D p = res

/-- A reader of the key file is not disturbed: either it will be waited for, or its bucket is
not written. -/
def GenOk (x : Sys) (g n : Nat) : Prop :=
  match x.fl with
  | .log _ => g = x.g.gen → x.s.c1.find n = none
  | .keys _ => x.s.c1.find n = none
  | _ => True

/-- `exists` as a whole, given the remaining program for the first bucket. -/
def whole (p rest : Prog Bool) : Prog Bool := p >>= fun r => if r then .ret true else rest

/-- Sizes of the arguments of `insert`. -/
def KvOk (cf : Conf) (k v : Bytes) : Prop := k.length = cf.keySize ∧ 1 ≤ v.length ∧ v.length < 2 ^ 32

/-- What is known about a thread at a place. -/
def ThreadOk (cf : Conf) (m : Map) (F : Prop) (x : Sys) (tr : List Ev) (D : Bytes) (t : Nat) : Pc → Prop
  | .out => True
  | .ret r => Ended m F tr t r
  | .fetch0 k => k.length = cf.keySize ∧ During m tr t (.fetch k) (fun _ => True)
  | .fetch1 k => k.length = cf.keySize ∧ During m tr t (.fetch k) (fun _ => True)
  | .fetchC k n blob p => x.s.c1.find n = some blob ∧
      During m tr t (.fetch k) (fun mm => Outcome F none D p (resOf (mm k)))
  | .fetchK k n g p => ∃ blk, KeyBlk cf.blockSize n blk x.fs ∧ GenOk x g n ∧
      During m tr t (.fetch k) (fun mm => Outcome F (blkRef cf n blk) D p (resOf (mm k)))
  | .ins0 k v => KvOk cf k v ∧ During m tr t (.insert k v) (fun _ => True)
  | .ins1 k v => KvOk cf k v ∧ During m tr t (.insert k v) (fun _ => True)
  | .ins2 k v => KvOk cf k v ∧ During m tr t (.insert k v) (fun _ => True)
  | .insC k v n blob p rest => x.s.c1.find n = some blob ∧
      KvOk cf k v ∧ During m tr t (.insert k v) (fun _ => True) ∧
      ((F ∧ p = .raise (.err .io)) ∨ eval none D (whole p rest) = .ok (contents m tr k).isSome)
  | .insS k v p => KvOk cf k v ∧ During m tr t (.insert k v) (fun _ => True) ∧
      Outcome F none D p (.ok (contents m tr k).isSome)
  | .insK k v n g p => ∃ blk, KeyBlk cf.blockSize n blk x.fs ∧ GenOk x g n ∧
      KvOk cf k v ∧ During m tr t (.insert k v) (fun _ => True) ∧
      Outcome F (blkRef cf n blk) D p (.ok (contents m tr k).isSome)
  | .ins3 k v => KvOk cf k v ∧ During m tr t (.insert k v) (fun _ => True) ∧ contents m tr k = none

theorem Outcome.mono {F F' : Prop} (hF : F → F') {B : Option (Nat × Bytes)} {D D' : Bytes} (hD : D <+: D')
    {p : Prog α} {res : Except Exc α} (hg : Good res) (h : Outcome F B D p res) : Outcome F' B D' p res := by
  rcases h with ⟨h1, h2⟩ | h
  · exact .inl ⟨hF h1, h2⟩
  · right
    rw [eval_mono hD (by rw [h]; exact hg), h]

theorem ThreadOk.change {cf : Conf} {m : Map} {F F' : Prop} {x y : Sys} {tr tr' : List Ev} {D D' : Bytes} {t : Nat}
    {q : Pc} (h : ThreadOk cf m F x tr D t q) (hF : F → F') (hD : D <+: D')
    (hE : ∀ op P, During m tr t op P → During m tr' t op P)
    (hR : ∀ r, Ended m F tr t r → Ended m F' tr' t r)
    (hM : holdsU q = true → contents m tr' = contents m tr)
    (hC : isC q = true → ∀ n blob, x.s.c1.find n = some blob → y.s.c1.find n = some blob)
    (hK : ∀ n g blk, genOf q = some g → blockOf q = some n → KeyBlk cf.blockSize n blk x.fs → GenOk x g n →
      KeyBlk cf.blockSize n blk y.fs ∧ GenOk y g n) :
    ThreadOk cf m F' y tr' D' t q := by
  cases q with
  | out => trivial
  | ret r => exact hR r h
  | fetch0 k => exact ⟨h.1, hE _ _ h.2⟩
  | fetch1 k => exact ⟨h.1, hE _ _ h.2⟩
  | fetchC k n blob p =>
    exact ⟨hC rfl _ _ h.1, (hE _ _ h.2).imp fun mm => Outcome.mono hF hD (good_resOf _)⟩
  | fetchK k n g p =>
    obtain ⟨blk, h1, h2, h3⟩ := h
    obtain ⟨h4, h5⟩ := hK n g blk rfl rfl h1 h2
    exact ⟨blk, h4, h5, (hE _ _ h3).imp fun mm => Outcome.mono hF hD (good_resOf _)⟩
  | ins0 k v => exact ⟨h.1, hE _ _ h.2⟩
  | ins1 k v => exact ⟨h.1, hE _ _ h.2⟩
  | ins2 k v => exact ⟨h.1, hE _ _ h.2⟩
  | insC k v n blob p rest =>
    refine ⟨hC rfl _ _ h.1, h.2.1, hE _ _ h.2.2.1, ?_⟩
    rw [hM rfl]
    rcases h.2.2.2 with ⟨h1, h2⟩ | h1
    · exact .inl ⟨hF h1, h2⟩
    · right
      rw [eval_mono hD (by rw [h1]; exact Good.ok _), h1]
  | insS k v p =>
    refine ⟨h.1, hE _ _ h.2.1, ?_⟩
    rw [hM rfl]
    exact h.2.2.mono hF hD (Good.ok _)
  | insK k v n g p =>
    obtain ⟨blk, h1, h2, h3, h4, h5⟩ := h
    obtain ⟨h6, h7⟩ := hK n g blk rfl rfl h1 h2
    refine ⟨blk, h6, h7, h3, hE _ _ h4, ?_⟩
    rw [hM rfl]
    exact h5.mono hF hD (Good.ok _)
  | ins3 k v =>
    refine ⟨h.1, hE _ _ h.2.1, ?_⟩
    rw [hM rfl]
    exact h.2.2

/-- The last flush did not fail. -/
structure Alive (cf : Conf) (m : Map) (lo : Nat) (x : Sys) (tr : List Ev) (recs : List Rec) : Prop where
  ec : x.s.ec = none
  mod : x.s.modulus = ceilPow2 x.s.buckets
  known : Known cf m lo tr (pairsOf recs)

/-- What is known about the flusher: after a failure the first `lo` or the first `nx` events are
restored; a flush that completes makes `nx` events permanent. -/
def FlOk (c : Cfg) (cf : Conf) (m : Map) (lo nx : Nat) (F : Prop) (x : Sys) (tr : List Ev) (D : Bytes) (recs : List Rec)
    (view : View) : Prop :=
  match x.fl with
  | .idle => (x.s.ec = some .io ∧ SafeM c cf m (Two lo nx) tr x.fs) ∨
      (Alive cf m lo x tr recs ∧ x.s.c1 = [] ∧ x.s.p0 = [] ∧
        ∃ K, Db c cf D K recs x.s.buckets view ∧ Idle D K x.fs)
  | .prep p => Uses (OpOk (fun _ => False) cf.blockSize) (fun _ => True) p ∧
      ((x.s.ec = some .io ∧ Ensures (fun _ _ => False) (XM c cf m (Two lo nx) tr) p x.fs) ∨
       (Alive cf m lo x tr recs ∧ x.s.c1 = [] ∧ x.s.p0 ≠ [] ∧ Known cf m nx tr (pairsOf recs ++ poolPairs x.s.p0) ∧
        ∃ K, Db c cf D K recs x.s.buckets view ∧
          Ensures (Prepared c cf D K recs x.s.buckets view x.s.p0) (XM c cf m (Two lo nx) tr) p x.fs ∧
          (¬ F → CalmP (Limit (x.s.buckets + x.s.p0.length)) p x.fs)))
  | .log p => Uses (OpOk (fun _ => False) cf.blockSize) (fun _ => True) p ∧
      Alive cf m nx x tr recs ∧ x.s.p0 = [] ∧ (∀ n p, (n, p) ∈ x.s.c1 → p.length ≤ cf.blockSize) ∧
      Ensures (fun _ fs' => SafeM c cf m (Two lo nx) tr fs' ∧
          Ensures (fun _ fs'' => ∃ K, Idle D K fs'' ∧ Db c cf D K recs x.s.buckets view) (XM c cf m (Two lo nx) tr)
            (commitKeysP c cf.blockSize x.s.c1) fs' ∧
          CalmP Never (commitKeysP c cf.blockSize x.s.c1) fs')
        (XM c cf m (Two lo nx) tr) p x.fs ∧
      (¬ F → CalmP Never p x.fs)
  | .keys p => Uses (OpOk (fun n => x.s.c1.find n ≠ none) cf.blockSize) (fun _ => True) p ∧
      Alive cf m nx x tr recs ∧ x.s.p0 = [] ∧
      Ensures (fun _ fs'' => ∃ K, Idle D K fs'' ∧ Db c cf D K recs x.s.buckets view) (XM c cf m (Two lo nx) tr) p x.fs ∧
      (¬ F → CalmP Never p x.fs)

/-- Everything stored: in the files, in the pool being flushed, in the pool of new pairs. -/
def stored (s : Store) (recs : List Rec) : List (Bytes × Bytes) :=
  pairsOf recs ++ poolPairs s.p0 ++ poolPairs s.p1

/-- What is known about files and memory. -/
structure Core (c : Cfg) (cf : Conf) (m : Map) (lo nx : Nat) (F : Prop) (x : Sys) (tr : List Ev) (D : Bytes) (recs : List Rec)
    (view : View) : Prop where
  ready : Ready c cf x.s x.fs D recs view
  each : ∀ it ∈ x.s.p0 ++ x.s.p1, it.hash = cf.hash c.H it.key ∧ it.key.length = cf.keySize ∧
    1 ≤ it.data.length ∧ it.data.length < 2 ^ 32
  nodup : ((stored x.s recs).map (·.1)).Nodup
  cont : ∀ k, k.length = cf.keySize → contents m tr k = kvOf (stored x.s recs) k
  ec : ∀ e, x.s.ec = some e → e = .io ∧ F
  thresh : x.s.thresh = max 65536 (cf.loadFactor * cf.cap)
  fl : FlOk c cf m lo nx F x tr D recs view

/-- The numbers of events that are permanent, and that will be when the flush completes. -/
def Bnd (lo nx : Nat) (tr : List Ev) : Prop := lo ≤ nx ∧ nx ≤ tr.length

theorem Bnd.more {lo nx : Nat} {tr es : List Ev} (h : Bnd lo nx tr) : Bnd lo nx (tr ++ es) :=
  ⟨h.1, by rw [List.length_append]; exact Nat.le_add_right_of_le h.2⟩

/-- The invariant. -/
structure Inv (c : Cfg) (cf : Conf) (m : Map) (lo nx : Nat) (F : Prop) (x : Sys) (tr : List Ev) : Prop where
  hist : Hist m F tr
  owned : Owned m tr
  bnd : Bnd lo nx tr
  core : ∃ D recs view, Core c cf m lo nx F x tr D recs view ∧ ∀ t, ThreadOk cf m F x tr D t (x.pc t)
  sh : Lsh x.pc x.shared
  ow : Low x.pc x.owner
  gen : Lgen x.pc x.g

section
variable {c : Cfg} {cf : Conf} {m : Map} {lo nx : Nat} {F F' : Prop} {x y : Sys} {tr tr' : List Ev} {D : Bytes} {recs : List Rec}
  {view : View} {t : Nat} {q : Pc}

theorem Alive.mono (h : Alive cf m lo x tr recs) (ht : tr <+: tr') : Alive cf m lo x tr' recs :=
  ⟨h.ec, h.mod, h.known.mono ht⟩

theorem FlOk.mono (h : FlOk c cf m lo nx F x tr D recs view) (hF : F → F') (ht : tr <+: tr') :
    FlOk c cf m lo nx F' x tr' D recs view := by
  unfold FlOk at *
  have hX : ∀ e fs, XM c cf m (Two lo nx) tr e fs → XM c cf m (Two lo nx) tr' e fs := fun _ _ h => h.mono ht
  have hn : ¬ F' → ¬ F := fun h h' => h (hF h')
  cases hfl : x.fl with
  | idle =>
    rw [hfl] at h
    rcases h with ⟨h1, h2⟩ | ⟨h1, h2⟩
    · exact .inl ⟨h1, h2.mono ht⟩
    · exact .inr ⟨h1.mono ht, h2⟩
  | prep p =>
    rw [hfl] at h
    refine ⟨h.1, ?_⟩
    rcases h.2 with ⟨h1, h2⟩ | ⟨h1, h2, h3, h4, K, h5, h6, h7⟩
    · exact .inl ⟨h1, h2.mono (fun _ _ h => h) hX⟩
    · exact .inr ⟨h1.mono ht, h2, h3, h4.mono ht, K, h5, h6.mono (fun _ _ h => h) hX, fun h => h7 (hn h)⟩
  | log p =>
    rw [hfl] at h
    obtain ⟨h1, h2, h3, h4, h5, h6⟩ := h
    exact ⟨h1, h2.mono ht, h3, h4,
      h5.mono (fun _ _ h => ⟨h.1.mono ht, h.2.1.mono (fun _ _ h => h) hX, h.2.2⟩) hX, fun h => h6 (hn h)⟩
  | keys p =>
    rw [hfl] at h
    obtain ⟨h1, h2, h3, h5, h6⟩ := h
    exact ⟨h1, h2.mono ht, h3, h5.mono (fun _ _ h => h) hX, fun h => h6 (hn h)⟩

theorem Core.mono (h : Core c cf m lo nx F x tr D recs view) (hF : F → F') (ht : tr <+: tr')
    (hc : contents m tr' = contents m tr) : Core c cf m lo nx F' x tr' D recs view :=
  ⟨h.ready, h.each, h.nodup, fun k hk => by rw [hc]; exact h.cont k hk, fun e he => ⟨(h.ec e he).1, hF (h.ec e he).2⟩,
    h.thresh, h.fl.mono hF ht⟩

/-- Only files, memory and the flusher's program matter. -/
theorem Core.congr (h : Core c cf m lo nx F x tr D recs view) (h1 : y.fs = x.fs) (h2 : y.s = x.s) (h3 : y.fl = x.fl) :
    Core c cf m lo nx F y tr D recs view := by
  obtain ⟨a1, a2, a3, a4, a5, a6, a7, a8⟩ := x
  obtain ⟨b1, b2, b3, b4, b5, b6, b7, b8⟩ := y
  simp only at h1 h2 h3
  subst h1; subst h2; subst h3
  obtain ⟨d1, d2, d3, d4, d5, d6, d7⟩ := h
  refine ⟨d1, d2, d3, d4, d5, d6, ?_⟩
  unfold FlOk at *
  cases b6 with
  | idle =>
    rcases d7 with d7 | ⟨⟨e1, e2, e3⟩, e⟩
    · exact .inl d7
    · exact .inr ⟨⟨e1, e2, e3⟩, e⟩
  | prep p =>
    refine ⟨d7.1, ?_⟩
    rcases d7.2 with d7 | ⟨⟨e1, e2, e3⟩, e⟩
    · exact .inl d7
    · exact .inr ⟨⟨e1, e2, e3⟩, e⟩
  | log p =>
    obtain ⟨f1, ⟨e1, e2, e3⟩, e⟩ := d7
    exact ⟨f1, ⟨e1, e2, e3⟩, e⟩
  | keys p =>
    obtain ⟨f1, ⟨e1, e2, e3⟩, e⟩ := d7
    exact ⟨f1, ⟨e1, e2, e3⟩, e⟩

theorem GenOk.congr {g n : Nat} (h : GenOk x g n) (h2 : y.s = x.s) (h3 : y.fl = x.fl) (h4 : y.g.gen = x.g.gen) :
    GenOk y g n := by
  unfold GenOk at *
  rw [h2, h3, h4]
  exact h

theorem ThreadOk.congr (h : ThreadOk cf m F x tr D t q) (hF : F → F') (h1 : y.fs = x.fs) (h2 : y.s = x.s) (h3 : y.fl = x.fl)
    (h4 : y.g.gen = x.g.gen) : ThreadOk cf m F' y tr D t q := by
  refine h.change hF (List.prefix_refl _) (fun _ _ h => h) (fun _ h => h.mono hF) (fun _ => rfl) ?_ ?_
  · intro _ n blob h; rw [h2]; exact h
  · intro n g blk _ _ hb hg; rw [h1]; exact ⟨hb, hg.congr h2 h3 h4⟩

/-- A step of one thread that changes only its place and locks, and is not observable. -/
theorem Inv.move (h : Inv c cf m lo nx F x tr) (hF : F → F') (h1 : y.fs = x.fs) (h2 : y.s = x.s) (h3 : y.fl = x.fl)
    (h4 : y.g.gen = x.g.gen) (h5 : y.pc = upd x.pc t q)
    (hs : Lsh y.pc y.shared) (ho : Low y.pc y.owner) (hg : Lgen y.pc y.g)
    (hq : ∀ D recs view, Core c cf m lo nx F x tr D recs view → ThreadOk cf m F x tr D t (x.pc t) →
      ThreadOk cf m F' x tr D t q) : Inv c cf m lo nx F' y tr := by
  refine ⟨h.hist.mono hF, h.owned, h.bnd, ?_, hs, ho, hg⟩
  obtain ⟨D, recs, view, hcore, hth⟩ := h.core
  refine ⟨D, recs, view, (hcore.mono hF (List.prefix_refl _) rfl).congr h1 h2 h3, fun u => ?_⟩
  rw [h5]
  by_cases hu : u = t
  · subst hu
    rw [updPc_same]
    exact (hq D recs view hcore (hth u)).congr id h1 h2 h3 h4
  · rw [updPc_other hu]
    exact (hth u).congr hF h1 h2 h3 h4

theorem Core.hasD (h : Core c cf m lo nx F x tr D recs view) : HasD D x.fs := h.ready.file

theorem Core.seen (h : Core c cf m lo nx F x tr D recs view) : HasD D x.seen := by
  have hd := h.hasD
  have hfl := h.fl
  unfold FlOk at hfl
  unfold Sys.seen
  cases e : x.fl with
  | idle => exact hd
  | prep p => rw [e] at hfl; exact (step_keeps hfl.1).2.1 D hd
  | log p => rw [e] at hfl; exact (step_keeps hfl.1).2.1 D hd
  | keys p => rw [e] at hfl; exact (step_keeps hfl.1).2.1 D hd

theorem Core.seenBlk (h : Core c cf m lo nx F x tr D recs view) {n g : Nat} {blk : Bytes}
    (hb : KeyBlk cf.blockSize n blk x.fs) (hg : GenOk x g n) : KeyBlk cf.blockSize n blk x.seen := by
  have hfl := h.fl
  unfold FlOk at hfl
  unfold GenOk at hg
  unfold Sys.seen
  cases e : x.fl with
  | idle => exact hb
  | prep p => rw [e] at hfl; exact (step_keeps hfl.1).2.2 n blk hb id
  | log p => rw [e] at hfl; exact (step_keeps hfl.1).2.2 n blk hb id
  | keys p => rw [e] at hfl hg; exact (step_keeps hfl.1).2.2 n blk hb (fun h => h hg)

theorem Outcome.step {B : Option (Nat × Bytes)} {p p' : Prog α} {res : Except Exc α} {fs : Fs}
    (h : Outcome F B D p res) (hg : Good res) (hd : HasD D fs) (hB : BlkAt B fs) {f : Fault}
    (hf : Fault.mild f = true) (hs : readStep f fs p = some p') : Outcome (F ∨ f ≠ .none) B D p' res := by
  rcases h with ⟨_, rfl⟩ | h
  · simp [readStep] at hs
  · cases f with
    | none => right; rw [eval_step hd hB (by rw [h]; exact hg) hs, h]
    | fail k => left; exact ⟨.inr Fault.noConfusion, eval_fail hs⟩
    | crash k => cases hf

theorem readStep_bind {p p' : Prog α} {k : α → Prog β} {f : Fault} {fs : Fs} (hs : readStep f fs p = some p') :
    readStep f fs (p >>= k) = some (p' >>= k) := by
  cases p with
  | read path off n kk =>
    simp only [readStep, Option.some.injEq] at hs
    subst hs
    show some (Prog.step f (.read path off n fun b => (kk b).bind k) fs).1 = _
    simp only [Prog.step, Prog.after]
    generalize fRead path off n (fun _ => f) ⟨fs, 0, []⟩ = r
    obtain ⟨r, w⟩ := r
    cases r <;> rfl
  | _ => simp [readStep] at hs

/-- Without fault a program that only has to read goes on. -/
theorem fuelOf_le {fs : Fs} (h : HasD D fs) : D.length + 2 ≤ fuelOf fs := by
  obtain ⟨f, h1, h2⟩ := h
  have := h2.length_le
  unfold fuelOf
  rw [h1]
  simp only
  omega

theorem stored_find (h : Core c cf m lo nx F x tr D recs view) {k : Bytes} :
    (∀ it, x.s.p1.find k = some it → kvOf (stored x.s recs) k = some it.data) ∧
    (∀ it, x.s.p0.find k = some it → kvOf (stored x.s recs) k = some it.data) ∧
    (x.s.p1.find k = none → x.s.p0.find k = none → kvOf (stored x.s recs) k = kvOf (pairsOf recs) k) := by
  have h1 := find_kvOf x.s.p1 k
  have h0 := find_kvOf x.s.p0 k
  have hn := h.nodup
  have hn' := hn
  unfold stored at hn'
  rw [List.map_append, List.nodup_append] at hn'
  have hn1 := hn'.2.1
  have hn0 := hn'.1
  rw [List.map_append, List.nodup_append] at hn0
  have hn0 := hn0.2.1
  refine ⟨?_, ?_, ?_⟩
  · intro it hf
    rw [hf] at h1
    rw [kvOf_some hn]
    have := (kvOf_some hn1).mp h1.symm
    exact List.mem_append.mpr (.inr this)
  · intro it hf
    rw [hf] at h0
    rw [kvOf_some hn]
    have := (kvOf_some hn0).mp h0.symm
    exact List.mem_append.mpr (.inl (List.mem_append.mpr (.inr this)))
  · intro e1 e0
    rw [e1] at h1; rw [e0] at h0
    unfold stored
    rw [kvOf_append, kvOf_append, ← h1, ← h0]
    simp

end

end NuDB
