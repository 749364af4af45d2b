import Verif.Proof.Blind2
import Verif.Proof.ConcSafe
import Verif.Props.Rekey
/- The invariant of databases over their whole life. -/
namespace NuDB

open Spec

section
variable {c : Cfg} {cf : Conf} {short : Prop}

theorem synced_powerLoss {fs fs' : Fs} (h : ∀ p, fs' p = (fs p).map FileSt.synced) : PowerLoss fs fs' := by
  intro p
  have hp := h p
  cases e : fs p with
  | none => rw [e] at hp; exact .inl hp
  | some f =>
    rw [e] at hp
    refine ⟨f.cur, hp.trans (by simp [synced_eq]), ?_⟩
    split
    · exact .inl (version_cur f)
    · exact ⟨fun i hi => .inl ⟨_, version_cur f, by simp [hi]⟩, ⟨_, version_cur f, Nat.le_refl _⟩,
        ⟨_, version_cur f, Nat.le_refl _⟩⟩

theorem Rel.synced {all : List (Bytes × Bytes)} {so : Option Store} {fs fs' : Fs} {st : St}
    (hR : Rel c cf short all (so, fs) st) (h : ∀ p, fs' p = (fs p).map FileSt.synced) :
    Rel c cf short all (so, fs') st := by
  have hr : Restart fs fs' := .inr (synced_powerLoss h)
  cases hR with
  | opened hS hz hf =>
    refine .opened ⟨hS.db, ?_, hS.ec, hS.p0, hS.c1, hS.kh, hS.buckets, hS.modulus, hS.pool, hS.thresh⟩ hz hf
    obtain ⟨df, h1, h2⟩ := hS.idle.dat
    obtain ⟨kf, h3, h4⟩ := hS.idle.key
    exact ⟨⟨_, by rw [h, h1]; rfl, h2.sync⟩, ⟨_, by rw [h, h3]; rfl, h4.sync⟩, by rw [h, hS.idle.log]; rfl⟩
  | failed he hp hL hs => exact .failed he hp hL (hs.restart hr)
  | closed hL hs => exact .closed hL (hs.restart hr)

theorem CurEq.synced {fs gs fs' : Fs} (h : CurEq fs gs) (h' : ∀ p, fs' p = (fs p).map FileSt.synced) :
    ∀ p, fs' p = (gs p).map FileSt.synced := by
  intro p
  rw [h' p]
  rcases curEq_cases h p with ⟨a, b⟩ | ⟨f, f', a, b, e⟩
  · rw [a, b]
  · rw [a, b]; simp [synced_eq, e]

/-- A call behaves the same whatever is synced. -/
theorem Exec.unsynced {n m : Nat} {so so' : Option Store} {fs fs' gs : Fs} {op : Op} {r : Ret} {d : Bool}
    (h : Exec c n m short (so, fs) (.call op r d) (so', fs')) (he : CurEq fs gs) :
    ∃ gs', Exec c n m short (so, gs) (.call op r d) (so', gs') ∧ CurEq fs' gs' := by
  cases h with
  | @call _ _ _ w' _ _ _ w σ ha hm hw h hx =>
    subst hw
    have hb := (Blind.perform (c := c) (op := op) (so := so)).go σ w ⟨gs, w.clock, w.out⟩ ⟨he, rfl, rfl⟩
    rw [h] at hb
    refine ⟨_, .call (w := ⟨gs, w.clock, w.out⟩) (w' := (perform c op so σ ⟨gs, w.clock, w.out⟩).2) σ ha hm rfl
      (Prod.ext hb.1.symm rfl) hx, hb.2.fs⟩

theorem volume_replicate (n : Nat) : volume (List.replicate n (([] : Bytes), ([] : Bytes))) = 6 * n := by
  induction n with
  | zero => rfl
  | succ n ih =>
    rw [List.replicate_succ, show (([] : Bytes), ([] : Bytes)) :: List.replicate n ([], []) =
      [([], [])] ++ List.replicate n ([], []) from rfl, volume_append, ih]
    simp [volume]; omega

/-- Any closed database may be the start of a history. -/
theorem rel_closed {D K : Bytes} {recs : List Rec} {B : Nat} {view : View} {fs : Fs}
    (hdb : Db c cf D K recs B view) (hC : Closed D K fs) :
    ∃ all, Rel c cf short all (none, fs) (.closed (kvOf (pairsOf recs)) (kvOf (pairsOf recs))) := by
  refine ⟨List.replicate (D.length + B) ([], []) ++ pairsOf recs,
    .closed (L := 0) (fun _ => Nat.zero_le _) (hC.safe ⟨recs, B, view, hdb, ⟨_, ?_, Few.refl _⟩, .inl rfl⟩)⟩
  refine ⟨?_, ?_⟩
  · rw [volume_append, volume_replicate]; omega
  · rw [List.length_append, List.length_replicate]; omega

end

/-- The files may hold two databases. -/
theorem Safe.two {L : Nat} {G : Bytes → Bytes → Prop} {fs : Fs} (h : Safe c cf L G fs) :
    ∃ D₀ K₀ D₁ K₁, G D₀ K₀ ∧ G D₁ K₁ ∧ Safe c cf L (fun D K => (D = D₀ ∧ K = K₀) ∨ (D = D₁ ∧ K = K₁)) fs := by
  cases h with
  | clear df kf D K hd hk hl hg sd sk =>
    exact ⟨D, K, D, K, hg, hg, .clear df kf D K hd hk hl (.inl ⟨rfl, rfl⟩) sd sk⟩
  | short df kf lf D K hd hk hl hlen hg sd sk img =>
    obtain ⟨D', K', hg', img⟩ := img
    exact ⟨D, K, D', K', hg, hg', .short df kf lf D K hd hk hl hlen (.inl ⟨rfl, rfl⟩) sd sk ⟨D', K', .inr ⟨rfl, rfl⟩, img⟩⟩
  | long df kf lf D K hd hk hl hlen hg img none =>
    exact ⟨D, K, D, K, hg, hg, .long df kf lf D K hd hk hl hlen (.inl ⟨rfl, rfl⟩) img none⟩

theorem sized_base {D : Bytes} (ps : List (Bytes × Bytes)) {B n : Nat} (hD : D.length ≤ n) (hB : B ≤ n) :
    Sized cf D (List.replicate n ([], []) ++ ps) B := by
  refine ⟨?_, ?_⟩
  · rw [volume_append, volume_replicate]; omega
  · rw [List.length_append, List.length_replicate]; omega

/-- Any database whose files hold one of two maps may be the start of a history. -/
theorem rel_two {L : Nat} {G : Bytes → Bytes → Prop} {P : Map → Prop} {fs : Fs} (hs : ¬ short) (h : Safe c cf L G fs)
    (hG : ∀ D K, G D K → ∃ recs B view, Db c cf D K recs B view ∧ P (kvOf (pairsOf recs))) :
    ∃ all m₀ m₁, P m₀ ∧ P m₁ ∧ Rel c cf short all (none, fs) (.closed m₀ m₁) := by
  obtain ⟨D₀, K₀, D₁, K₁, h1, h2, h3⟩ := h.two
  obtain ⟨recs₀, B₀, view₀, g1, p1⟩ := hG _ _ h1
  obtain ⟨recs₁, B₁, view₁, g2, p2⟩ := hG _ _ h2
  refine ⟨List.replicate (D₀.length + B₀ + (D₁.length + B₁)) ([], []) ++ pairsOf recs₀ ++ pairsOf recs₁, _, _, p1, p2,
    .closed (fun h => absurd h hs) (h3.mono ?_)⟩
  rintro D K (⟨rfl, rfl⟩ | ⟨rfl, rfl⟩)
  · refine ⟨recs₀, B₀, view₀, g1, ⟨_, sized_base _ (n := D.length + B₀ + (D₁.length + B₁)) (by omega) (by omega), ?_⟩, .inl rfl⟩
    exact ⟨by simp, by simp [volume_append]⟩
  · refine ⟨recs₁, B₁, view₁, g2, ⟨_, sized_base _ (n := D₀.length + B₀ + (D.length + B₁)) (by omega) (by omega), ?_⟩, .inr rfl⟩
    exact ⟨by simp, by simp [volume_append]⟩

theorem mem_pairsOf {k v : Bytes} : ∀ {recs : List Rec}, (k, v) ∈ pairsOf recs → .data k v ∈ recs := by
  intro recs
  induction recs with
  | nil => intro h; cases h
  | cons r recs ih =>
    intro h
    cases r with
    | data k' v' =>
      simp only [pairsOf, List.mem_cons, Prod.mk.injEq] at h
      rcases h with ⟨rfl, rfl⟩ | h
      · simp
      · simp [ih h]
    | spill => simp [ih h]

/-- Keys have one length. -/
theorem kvOf_length {recs : List Rec} {D k : Bytes} (h : DatFile cf D recs) (hk : k.length ≠ cf.keySize) :
    kvOf (pairsOf recs) k = none := by
  rw [kvOf_none]
  intro hm
  obtain ⟨⟨k', v⟩, hm', rfl⟩ := List.mem_map.mp hm
  exact hk ((h.ok _ (mem_pairsOf hm')).data _ _ rfl).1

section
open Conc
variable {s : Store} {fs : Fs} {m : Map} {lo nx : Nat} {F : Prop} {x : Sys} {tr : List Ev} {acts : List Act}

theorem contents_length (h : Inv c cf m 0 0 False x []) {y : Sys} (hr : run c acts x = some (y, tr))
    {now : List Ev} (hn : now <+: tr) {k : Bytes} (hm : m k = none) (hk : k.length ≠ cf.keySize) :
    contents m now k = none := by
  apply Classical.byContradiction
  intro hne
  obtain ⟨pre, t, v, post, e⟩ := contents_some hm hne
  obtain ⟨l, rfl⟩ := hn
  obtain ⟨lo, nx, hinv⟩ := inv_run h hr
  obtain ⟨_, p', mid, e2, _⟩ := hinv.owned pre t k v (post ++ l) (by rw [e]; simp)
  exact hk (inv_calls h hr t k v (by rw [e, e2]; simp))

/-- Maps that agree on keys of the right length are equal. -/
theorem contents_full (h : Inv c cf m 0 0 False x []) {y : Sys} (hr : run c acts x = some (y, tr))
    {now : List Ev} (hn : now <+: tr) (hm : ∀ k : Bytes, k.length ≠ cf.keySize → m k = none) {mp : Map}
    (h1 : ∀ k : Bytes, k.length ≠ cf.keySize → mp k = none) (h2 : ∀ k : Bytes, k.length = cf.keySize → mp k = contents m now k) :
    mp = contents m now := by
  funext k
  by_cases hk : k.length = cf.keySize
  · exact h2 k hk
  · rw [h1 k hk, contents_length h hr hn (hm k hk) hk]

/-- The end of a session of several threads. -/
theorem session_end (hk : ∀ k : Bytes, k.length ≠ cf.keySize → m k = none) (h : Inv c cf m 0 0 False (Sys.init s fs) [])
    (hr : run c acts (Sys.init s fs) = some (x, tr)) {kept : List Ev} (hc : kept = [] ∨ Completed c acts (Sys.init s fs) kept)
    (hi : x.fl = .idle) (he : x.s.ec = none) :
    ∃ all now b, kept <+: now ∧ now <+: tr ∧ Map.union (contents m now) b = contents m tr ∧
      Rel c cf short all (some x.s, x.fs) (.opened (contents m now) b) := by
  obtain ⟨lo, nx, hinv, -, h2⟩ := inv_moments h hr
  obtain ⟨D, recs, view, hcore, -⟩ := hinv.core
  have hfl := hcore.fl
  unfold FlOk at hfl
  rw [hi] at hfl
  rcases hfl with ⟨h1, _⟩ | ⟨⟨a1, a2, pre, a3, a4, a5⟩, b1, b2, K, b3, b4⟩
  · rw [he] at h1; cases h1
  have hS : Sess c cf x.s x.fs D K recs x.s.buckets view :=
    ⟨b3, b4, a1, b2, b1, hcore.ready.kh, rfl, a2, hcore.pool1 b2, hcore.thresh⟩
  have e1 : kvOf (pairsOf recs) = contents m pre :=
    contents_full h hr a3 hk (fun k hk => kvOf_length b3.dat hk) a5
  have hR := Rel.opened (short := short) hS
    (sized_base (cf := cf) (D := D) (pairsOf recs) (B := x.s.buckets) (n := D.length + x.s.buckets) (by omega) (by omega))
    (Few.refl _)
  rw [e1] at hR
  refine ⟨_, pre, _, ?_, a3, ?_, hR⟩
  · rcases hc with rfl | hc
    · exact List.nil_prefix
    · refine List.prefix_of_prefix_length_le (hc.prefix hr) a3 ?_
      rw [a4]; exact h2 _ hc
  · rw [← e1, union_kvOf]
    refine contents_full h hr (List.prefix_refl _) hk (fun k hk => ?_) (fun k hk => ?_)
    · rw [kvOf_append, kvOf_length b3.dat hk, Option.none_or, kvOf_none]
      intro hm
      obtain ⟨p, hm', rfl⟩ := List.mem_map.mp hm
      obtain ⟨it, hit, rfl⟩ := List.mem_map.mp hm'
      exact hk (hcore.each it (List.mem_append.mpr (.inr hit))).2.1
    · rw [hcore.cont k hk]
      unfold stored
      rw [b2]
      simp [poolPairs]

/-- A session of several threads that ends because the process dies. -/
theorem session_died (hs : ¬ short) (hk : ∀ k : Bytes, k.length ≠ cf.keySize → m k = none)
    (h : Inv c cf m 0 0 False (Sys.init s fs) [])
    (hr : run c acts (Sys.init s fs) = some (x, tr)) {kept : List Ev} (hc : kept = [] ∨ Completed c acts (Sys.init s fs) kept)
    {fs' : Fs} (h' : Restart x.seen fs') :
    ∃ all now₀ now₁, kept <+: now₀ ∧ now₀ <+: tr ∧ kept <+: now₁ ∧ now₁ <+: tr ∧
      Rel c cf short all (none, fs') (.closed (contents m now₀) (contents m now₁)) := by
  obtain ⟨lo, nx, hinv, -, h2⟩ := inv_moments h hr
  obtain ⟨L, hsafe⟩ := hinv.safe.restart h'
  obtain ⟨all, m₀, m₁, ⟨n₀, g1, g2, rfl⟩, ⟨n₁, g3, g4, rfl⟩, hR⟩ := rel_two
    (P := fun mp => ∃ now, kept <+: now ∧ now <+: tr ∧ mp = contents m now) hs hsafe (by
      rintro D K ⟨pre, p1, p2, recs, B, view, p3, p4⟩
      refine ⟨recs, B, view, p3, pre, ?_, p1, contents_full h hr p1 hk (fun k hk => kvOf_length p3.dat hk) p4⟩
      rcases hc with rfl | hc
      · exact List.nil_prefix
      · refine List.prefix_of_prefix_length_le (hc.prefix hr) p1 ?_
        have := h2 _ hc
        have := hinv.bnd.1
        rcases p2 with p2 | p2 <;> omega)
  exact ⟨all, n₀, n₁, g1, g2, g3, g4, hR⟩

theorem session_right (h : Inv c cf m 0 0 False (Sys.init s fs) [])
    (hr : run c acts (Sys.init s fs) = some (x, tr)) : Session m (Faults acts) tr := by
  obtain ⟨lo, nx, hinv, -⟩ := inv_moments h hr
  exact ⟨hinv.hist, hinv.owned⟩

theorem Spec.Session.mono {F' : Prop} (h : Session m F tr) (hF : F → F') : Session m F' tr :=
  ⟨Hist.mono hF h.calls, h.added⟩

/-- A store that several threads may start to use. -/
theorem rel_start {all : List (Bytes × Bytes)} {st : St} (h : Rel c cf short all (some s, fs) st) (he : s.ec = none)
    (hp : s.p1 = []) : ∃ m, st = .opened m Map.empty ∧ (∀ k : Bytes, k.length ≠ cf.keySize → m k = none) ∧
      Inv c cf m 0 0 False (Sys.init s fs) [] ∧ Lookups c cf.keySize s fs m := by
  cases h with
  | failed h => rw [he] at h; cases h
  | opened hS =>
    refine ⟨_, by rw [hp]; rfl, fun k hk => kvOf_length hS.db.dat hk, inv_sess hS hp (fun _ _ => rfl), ?_⟩
    have := hS.lookups
    rw [hp, poolPairs] at this
    simpa using this

end

/-- The invariant. -/
def Held (c : Cfg) (keySize : Nat) (short : Prop) : Phase → Option Store × Fs → St → Prop
  | .ready n, x, st => ∃ cf all, cf.Ok ∧ cf.keySize = keySize ∧ cf.blockSize = n ∧ Rel c cf short all x st
  | .fresh n, x, st => ∃ cf all gs, cf.Ok ∧ cf.keySize = keySize ∧ cf.blockSize = n ∧ CurEq x.2 gs ∧
      Rel c cf short all (x.1, gs) st
  | .keyless, x, st => ∃ cf df D K recs B view, x.1 = none ∧ x.2 .dat = some df ∧ Stable df D ∧ x.2 .key = none ∧
      x.2 .log = none ∧ Db c cf D K recs B view ∧ cf.keySize = keySize ∧
      st = .closed (kvOf (pairsOf recs)) (kvOf (pairsOf recs))

section
variable {c : Cfg} {n : Nat} {short : Prop}

theorem set_none_self {fs : Fs} (h : fs .key = none) : fs = fs.set .key none := by
  funext p
  unfold Fs.set
  split
  · rename_i e; rw [e, h]
  · rfl

theorem lifetime_held {ph : Phase} {x : Option Store × Fs} {es : List Change} (h : Lifetime c n short ph x es) :
    ∃ st, Lived es st ∧ Held c n short ph x st := by
  induction h with
  | created σ ha hk hw h =>
    exact ⟨_, .created, _, _, (creatable_ok ha).1, hk, rfl, rel_created ha hw h⟩
  | used h h' ih =>
    obtain ⟨st, hl, cf, all, h1, h2, h3, h4⟩ := ih
    subst h2 h3
    obtain ⟨st', g1, g2⟩ := exec_sound h1 h4 h'
    exact ⟨st', hl.next (.used g1), cf, _, h1, rfl, rfl, g2⟩
  | @usedFresh _ x y op r d es h h' ih =>
    obtain ⟨st, hl, cf, all, gs, h1, h2, h3, h4, h5⟩ := ih
    subst h2 h3
    obtain ⟨gs', g1, g2⟩ := Exec.unsynced (so := x.1) (fs := x.2) (so' := y.1) (fs' := y.2) h' h4
    obtain ⟨st', g3, g4⟩ := exec_sound h1 h5 g1
    exact ⟨st', hl.next (.used g3), cf, _, gs', h1, rfl, rfl, g2, g4⟩
  | settled h h' ih =>
    obtain ⟨st, hl, cf, all, gs, h1, h2, h3, h4, h5⟩ := ih
    exact ⟨st, hl.next .settled, cf, all, h1, h2, h3, h5.synced (CurEq.synced h4 h')⟩
  | @removed _ fs es h hl ih =>
    obtain ⟨st, hv, cf, all, h1, h2, h3, h4⟩ := ih
    cases h4 with
    | closed hL hs =>
      cases hs with
      | clear df kf D K hd hk _ hg sd sk =>
        obtain ⟨recs, B, view, g1, _, g2⟩ := hg
        exact ⟨_, hv.next (.removed g2), cf, df, D, K, recs, B, view, rfl,
          show (fs.set .key none) .dat = _ from hd, sd, show (fs.set .key none) .key = none from Fs.set_same fs _ _,
          show (fs.set .key none) .log = _ from hl, g1, h2, rfl⟩
      | short _ _ _ _ _ _ _ hl' => rw [hl] at hl'; cases hl'
      | long _ _ _ _ _ _ _ hl' => rw [hl] at hl'; cases hl'
  | shared h he hp hr hd hc _ hi he' ih =>
    obtain ⟨st, hl, cf, all, h1, h2, h3, h4⟩ := ih
    obtain ⟨m, rfl, g1, g2, -⟩ := rel_start h4 he hp
    obtain ⟨all, now, b, k1, k2, k3, k4⟩ := session_end g1 g2 hr hc hi he'
    exact ⟨_, hl.next (.shared ((session_right g2 hr).mono hd) k1 k2 k3), cf, all, h1, h2, h3, k4⟩
  | ended h he hp hr hd hc hs h' ih =>
    obtain ⟨st, hl, cf, all, h1, h2, h3, h4⟩ := ih
    obtain ⟨m, rfl, g1, g2, -⟩ := rel_start h4 he hp
    obtain ⟨all, now₀, now₁, k1, k2, k3, k4, k5⟩ := session_died hs g1 g2 hr hc h'
    exact ⟨_, hl.next (.ended ((session_right g2 hr).mono hd) k1 k2 k3 k4), cf, all, h1, h2, h3, k5⟩
  | @interrupted fs fs' es a lf w w₁ w₂ x r σ h ha hw h₁ hs h₂ ih =>
    obtain ⟨st, hv, cf, df, D, K, recs, B, view, g1, g2, g3, g4, g5, g6, g7, g8⟩ := ih
    have key := wp_elim_error (rekey_wp ha g6 g2 g3 g5 (hw.trans (set_none_self g4))) h₁
    obtain ⟨⟨df', u1, u2, u3⟩, _, u4⟩ := recover_undo (rekeyable_ok ha g6.conf).2 (g6.dat.rekey a lf) g6.dlen (key.1.restart hs)
    rw [h₂] at u1 u3 u4
    exact ⟨st, hv.next .interrupted, cf, df', D, K, recs, B, view, rfl, u1, u2, u3, by simpa using u4, g6, g7, g8⟩
  | @rekeyed fs es a lf w w' σ h ha hw h' ih =>
    obtain ⟨st, hv, cf, df, D, K, recs, B, view, g1, g2, g3, g4, g5, g6, g7, g8⟩ := ih
    obtain ⟨rs, view', df', kf, k1, k2, k3, _, k5, k6, k7, _⟩ :=
      wp_elim (rekey_wp ha g6 g2 g3 g5 (hw.trans (set_none_self g4))) h'
    have hC : Closed (D ++ encRecs rs) kf.cur (fun p => (w'.fs p).map FileSt.synced) := by
      refine ⟨⟨df'.synced, by simp only [k2]; rfl, ?_⟩, ⟨kf.synced, by simp only [k5]; rfl, ?_⟩, by simp only [k6]; rfl⟩
      · rw [synced_eq, k3]; exact stable_clean _
      · rw [synced_eq]; exact stable_clean _
    obtain ⟨all, hR⟩ := rel_closed (short := short) k7 hC
    rw [pairsOf_append, pairsOf_spills k1, List.append_nil] at hR
    refine ⟨st, hv.next .rekeyed, _, all, (fun p => (w'.fs p).map FileSt.synced), k7.conf, g7, rfl, ?_, ?_⟩
    rotate_left
    · rw [g8]; exact hR
    · intro p
      cases e : w'.fs p with
      | none => simp [e]
      | some f => simp [e, synced_eq]

end

end NuDB
