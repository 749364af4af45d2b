import Verif.Proof.Visit
import Verif.Proof.Frame
import Verif.Proof.Settled
import Verif.Proof.Only
import Verif.Props.Demo
/-
C27, C28 and C46 (first part): `visit`.
-/
namespace NuDB

open Spec

variable {c : Cfg} {ks : Nat}

private theorem visited_append (x y : List Event) : visited (x ++ y) = visited x ++ visited y := by
  simp [visited]

private theorem values_cons_value (k v : Bytes) (rs : List Record) :
    values (.value k v :: rs) = (k, v) :: values rs := rfl
private theorem values_cons_overflow (b : Bytes) (rs : List Record) :
    values (.overflow b :: rs) = values rs := rfl

private theorem replies_append (cb : List Event → Option Err) (y : List Event) : ∀ (x past : List Event),
    replies cb past (x ++ y) = replies cb past x ++ replies cb (past ++ x) y := by
  intro x
  induction x with
  | nil => intro past; simp [replies]
  | cons e x ih =>
    intro past
    cases e <;> simp [replies, ih]

/-- The calls made by `visit`. -/
private theorem tour_spec (total : Nat) (cb : List Event → Option Err) (rs : List Record) : ∀ out pos,
    ∃ evs, (tour total cb out pos rs).2 = out ++ evs ∧
      (((tour total cb out pos rs).1 = none ∧ visited evs = values rs ∧ ∀ x ∈ replies cb out evs, x = none) ∨
        ∃ e n, (tour total cb out pos rs).1 = some e ∧ n < (values rs).length ∧ visited evs = (values rs).take (n + 1) ∧
          replies cb out evs = List.replicate n none ++ [some e]) := by
  induction rs with
  | nil => intro out pos; exact ⟨[], by simp [tour], .inl ⟨rfl, rfl, by simp [replies]⟩⟩
  | cons r rs ih =>
    intro out pos
    cases r with
    | value k v =>
      simp only [tour]
      cases hcb : cb (out ++ [.item k v]) with
      | some e =>
        refine ⟨[.item k v], rfl, .inr ⟨e, 0, rfl, ?_, ?_, ?_⟩⟩
        · rw [values_cons_value]; simp
        · rw [values_cons_value]; simp [visited]
        · simp [replies, hcb]
      | none =>
        simp only
        obtain ⟨evs, h1, h2⟩ := ih (out ++ [.item k v] ++ [.progress (pos + (6 + k.length + v.length)) total])
          (pos + (6 + k.length + v.length))
        refine ⟨[.item k v, .progress (pos + (6 + k.length + v.length)) total] ++ evs, by rw [h1]; simp, ?_⟩
        have hr : replies cb out ([.item k v, .progress (pos + (6 + k.length + v.length)) total] ++ evs) =
            none :: replies cb (out ++ [.item k v] ++ [.progress (pos + (6 + k.length + v.length)) total]) evs := by
          simp [replies, hcb]
        have hv : visited ([.item k v, .progress (pos + (6 + k.length + v.length)) total] ++ evs) = (k, v) :: visited evs := rfl
        rw [hr, hv, values_cons_value]
        rcases h2 with ⟨a1, a2, a3⟩ | ⟨e, n, a1, a2, a3, a4⟩
        · refine .inl ⟨a1, by rw [a2], ?_⟩
          intro x hx
          rcases List.mem_cons.mp hx with rfl | hx
          · rfl
          · exact a3 x hx
        · exact .inr ⟨e, n + 1, a1, by simpa using a2, by rw [a3, List.take_succ_cons], by rw [a4, List.replicate_succ]; rfl⟩
    | overflow b =>
      simp only [tour]
      obtain ⟨evs, h1, h2⟩ := ih (out ++ [.progress (pos + (8 + b.length)) total]) (pos + (8 + b.length))
      refine ⟨.progress (pos + (8 + b.length)) total :: evs, by rw [h1]; simp, ?_⟩
      exact h2

/-- C27: on a data file, `visit` gives all pairs, in the order of the file, and only them, to
the callback (here one that never sets an error). If a file operation is disturbed, an initial
part of them. No file is changed. -/
theorem C27_visit {rs : List Record} {f : FileSt} {w w' : World} {σ : Schedule} {res : Except Exc Unit}
    (hf : w.fs .dat = some f) (hd : DataFile ks f.cur rs) (h : visit c (fun _ => none) σ w = (res, w')) :
    w'.fs = w.fs ∧
    ((res = .ok () ∧ visited w'.out = visited w.out ++ values rs) ∨
      (Disturbed σ ∧ (∃ x, res = .error x) ∧ ∃ l, l <+: values rs ∧ visited w'.out = visited w.out ++ l)) := by
  obtain ⟨hh, h1, h2, h3⟩ := hd
  have key := wp_visit (σ := σ) (c := c) (cb := fun _ => none) (x0 := none) (tail := []) rfl h1 hf (by rw [h2]; simp) h3
  generalize hO : w.out ++ [.progress 0 f.cur.length] = out0 at key
  obtain ⟨evs, t1, t2⟩ := tour_spec f.cur.length (fun _ => none) rs out0 92
  have hn : ∀ (evs past : List Event) (x : Option Err), x ∈ replies (fun _ => none) past evs → x = none := by
    intro evs
    induction evs with
    | nil => intro past x hx; simp [replies] at hx
    | cons e evs ih =>
      intro past x hx
      cases e with
      | item k v =>
        simp only [replies, List.mem_cons] at hx
        exact hx.elim id (ih _ x)
      | progress n t => exact ih _ x hx
  have t3 : (tour f.cur.length (fun _ => none) out0 92 rs).1 = none ∧ visited evs = values rs := by
    rcases t2 with ⟨a1, a2, _⟩ | ⟨e, n, _, _, _, a4⟩
    · exact ⟨a1, a2⟩
    · have := hn evs out0 (some e) (by rw [a4]; simp)
      cases this
  have ho : visited out0 = visited w.out := by rw [← hO, visited_append]; simp [visited]
  unfold wp at key
  rw [h] at key
  cases res with
  | ok u =>
    obtain ⟨k1, _, _, k4⟩ := key
    refine ⟨k1, .inl ⟨rfl, ?_⟩⟩
    rw [k4, t1, visited_append, ho, t3.2]
  | error x =>
    obtain ⟨k1, k2⟩ := key
    refine ⟨k1, .inr ?_⟩
    generalize hw : w'.out = out' at k2
    cases k2 with
    | callback h' => rw [t3.1] at h'; cases h'
    | fault _ hfa hb hp =>
      refine ⟨hfa, ⟨_, rfl⟩, ?_⟩
      obtain ⟨z, rfl⟩ := hb
      rw [t1, ← hO, List.append_assoc, List.prefix_append_right_inj] at hp
      obtain ⟨y, hp⟩ := hp
      refine ⟨visited z, ?_, by rw [visited_append]⟩
      have := congrArg visited hp
      rw [visited_append, visited_append, t3.2] at this
      exact ⟨_, this⟩
    | torn _ hc => rcases hc with h' | h' | h' | h' <;> simp at h'

/-- The data file of a database has the documented layout. -/
theorem dataFile_of {cf : Conf} {D : Bytes} {recs : List Rec} (hcf : cf.Ok) (h : DatFile cf D recs) :
    DataFile cf.keySize D (recs.map Rec.toRecord) := by
  refine ⟨putDatHeader cf.dh, ?_, by rw [layout_toRecord]; exact h.eq, ?_⟩
  · have hk : getU16 (putU16 cf.keySize) = cf.keySize := getU16_putU16 hcf.key2
    refine ⟨rfl, rfl, ?_, ?_, hcf.key1⟩
    · rw [← C18_u16.reads _ rfl]
      exact getU16_putU16 (u := 2) (by decide)
    · rw [← C18_u16.reads _ rfl]
      exact hk
  · intro r hr
    obtain ⟨r, hr', rfl⟩ := List.mem_map.mp hr
    have hcap := hcf.cap_le
    have hbs := hcf.bs2
    cases r with
    | data k v => exact (h.ok _ hr').data k v rfl
    | spill es s =>
      have := ((h.ok _ hr').spill es s rfl).1
      show (encBkt es s).length < 2 ^ 16
      rw [encBkt_length]; exact this

theorem pairsOf_mem {recs : List Rec} {k v : Bytes} (h : (k, v) ∈ pairsOf recs) :
    ∃ r ∈ recs, r = .data k v := by
  induction recs with
  | nil => simp [pairsOf] at h
  | cons r rs ih =>
    cases r with
    | data k' v' =>
      simp only [pairsOf, List.mem_cons] at h
      rcases h with h | h
      · cases h; exact ⟨_, by simp, rfl⟩
      · obtain ⟨r, h1, h2⟩ := ih h; exact ⟨r, by simp [h1], h2⟩
    | spill es s =>
      obtain ⟨r, h1, h2⟩ := ih h; exact ⟨r, by simp [h1], h2⟩

section
variable {a : CreateArgs} {lf : Nat} {short : Prop}

/-- C27: `visit` on a closed database (no log file is left; otherwise `recover` has to be called
first) gives exactly the stored pairs to the callback, each once. `m` is what lookups answer. -/
theorem C27_database {t : List Label} {fs : Fs} {m : Map} (hc : Creatable a lf)
    (hr : Reachable c a short t (none, fs)) (hl : fs .log = none) (hm : Answers c a.keySize fs m) :
    ∃ w', visit c (fun _ => none) calm ⟨fs, 0, []⟩ = (.ok (), w') ∧ w'.fs = fs ∧
      ((visited w'.out).map Prod.fst).Nodup ∧
      ∀ k v, (k, v) ∈ visited w'.out ↔ k.length = a.keySize ∧ m k = some v := by
  obtain ⟨D, K, recs, B, view, hS, _⟩ := settled hc hr hl
  obtain ⟨df, hd, sd⟩ := hS.closed.dat
  have hdat := dataFile_of hS.db.conf hS.db.dat
  rw [← sd.cur] at hdat
  cases hv : visit c (fun _ => none) calm ⟨fs, 0, []⟩ with
  | mk res w' =>
    obtain ⟨h1, h2⟩ := C27_visit (w := ⟨fs, 0, []⟩) hd hdat hv
    rcases h2 with ⟨rfl, h2⟩ | ⟨h, _⟩
    · have e : visited w'.out = pairsOf recs := by rw [h2, values_toRecord]; rfl
      refine ⟨w', rfl, h1, by rw [e]; exact hS.db.dat.nodup, ?_⟩
      intro k v
      rw [e]
      have hlen : ∀ k v, (k, v) ∈ pairsOf recs → k.length = a.keySize := by
        intro k v h
        obtain ⟨r, hr, e⟩ := pairsOf_mem h
        exact ((hS.db.dat.ok r hr).data k v e).1
      constructor
      · intro h
        refine ⟨hlen k v h, ?_⟩
        rw [hm.unique (m' := kvOf (pairsOf recs)) hS.map (hlen k v h)]
        exact (kvOf_some hS.db.dat.nodup).mpr h
      · rintro ⟨hk, h⟩
        rw [hm.unique (m' := kvOf (pairsOf recs)) hS.map hk] at h
        exact (kvOf_some hS.db.dat.nodup).mp h
    · exact absurd h not_faulty_calm

/-- C27, order: a flush appends the buffered pairs, in the order of the insert buffer, to what
`visit` reports. (Nothing else but a flush changes the data file, see C13.) -/
theorem C27_order {t : List Label} {s s' : Store} {fs : Fs} {σ : Schedule} {w w' v v' : World} (hc : Creatable a lf)
    (hr : Reachable c a short t (some s, fs)) (he : s.ec = none) (hw : w.fs = fs)
    (hfl : perform c .flush (some s) σ w = (.ok (some s', .done), w'))
    (hv : visit c (fun _ => none) calm ⟨fs, 0, []⟩ = (.ok (), v))
    (hv' : visit c (fun _ => none) calm ⟨w'.fs, 0, []⟩ = (.ok (), v')) :
    visited v'.out = visited v.out ++ s.p1.map (fun it => (it.key, it.data)) := by
  obtain ⟨st, _, hR⟩ := simulation hc hr
  cases hR with
  | @opened _ _ D K recs B view hS base hz hf =>
    subst hw
    have key : wp σ (perform c .flush (some s)) (fun r w' => r.2 = .done → ∃ s' D1 K1 rs B1 view1,
        Sess c (a.conf lf) s' w'.fs D1 K1 (recs ++ recsOf s.p1 ++ rs) B1 view1 ∧ Spills (a.conf lf) rs) (fun _ _ => True) w := by
      unfold perform
      apply wp_bind
      refine wp_conseq (wp_flush hS (G := fun _ _ => True) (fun _ => Nat.le_refl _) trivial
        (fun _ _ _ _ _ _ _ _ _ _ => trivial)
        (Q := fun s' w' => s'.ec = none → ∃ s' D1 K1 rs B1 view1,
          Sess c (a.conf lf) s' w'.fs D1 K1 (recs ++ recsOf s.p1 ++ rs) B1 view1 ∧ Spills (a.conf lf) rs) ?_ ?_) ?_ ?_
      · intro s' w' D1 K1 rs B1 view1 b1 b2 b3 b4 b5 b6 b7 b8 _
        exact ⟨s', D1, K1, rs, B1, view1, b1, b2⟩
      · intro s' w' _ _ h _ h'; rw [h] at h'; cases h'
      · intro s' w' h
        split
        · rename_i h'; exact wp_ret (fun _ => h h')
        · exact wp_ret (fun h => by cases h)
      · intros; trivial
    obtain ⟨s1, D1, K1, rs, B1, view1, h1, h2⟩ := wp_elim key hfl rfl
    have hvis : ∀ {s : Store} {fs : Fs} {D K recs B view} {v : World}, Sess c (a.conf lf) s fs D K recs B view →
        visit c (fun _ => none) calm ⟨fs, 0, []⟩ = (.ok (), v) → visited v.out = pairsOf recs := by
      intro s fs D K recs B view v hS hv
      obtain ⟨df, hd, sd⟩ := hS.idle.dat
      have hdat := dataFile_of hS.db.conf hS.db.dat
      rw [← sd.cur] at hdat
      obtain ⟨_, h2⟩ := C27_visit (w := ⟨fs, 0, []⟩) hd hdat hv
      rcases h2 with ⟨_, h2⟩ | ⟨h, _⟩
      · rw [h2, values_toRecord]; rfl
      · exact absurd h not_faulty_calm
    rw [hvis hS hv, hvis h1 hv', pairsOf_commit h2]
    rfl
  | failed h => rw [he] at h; cases h

end

/-- C27: `visit` does not use the key file or the log file. -/
theorem C27_data_file_only {cb : List Event → Option Err} {σ : Schedule} {w v : World} (h : w.fs .dat = v.fs .dat)
    (hc : w.clock = v.clock) (ho : w.out = v.out) :
    (visit c cb σ w).1 = (visit c cb σ v).1 ∧ (visit c cb σ w).2.out = (visit c cb σ v).2.out := by
  have := (Only.visit (c := c) (cb := cb)).go σ w v ⟨h, hc, ho⟩
  exact ⟨this.1, this.2.1.out⟩

/-- C28: the first error set by the callback ends `visit` and is reported. -/
theorem C28_callback {rs : List Record} {f : FileSt} {w : World} (cb : List Event → Option Err)
    (hf : w.fs .dat = some f) (hd : DataFile ks f.cur rs) :
    ∃ res w' evs, visit c cb calm w = (res, w') ∧ w'.fs = w.fs ∧ w'.out = w.out ++ evs ∧
      ((res = .ok () ∧ visited evs = values rs ∧ ∀ x ∈ replies cb w.out evs, x = none) ∨
        ∃ e n, res = .error (.err e) ∧ n < (values rs).length ∧ visited evs = (values rs).take (n + 1) ∧
          replies cb w.out evs = List.replicate n none ++ [some e]) := by
  obtain ⟨hh, h1, h2, h3⟩ := hd
  have key := wp_visit (σ := calm) (c := c) (cb := cb) (x0 := none) (tail := []) rfl h1 hf (by rw [h2]; simp) h3
  obtain ⟨evs, t1, t2⟩ := tour_spec f.cur.length cb rs (w.out ++ [.progress 0 f.cur.length]) 92
  have hr : replies cb w.out ([.progress 0 f.cur.length] ++ evs) = replies cb (w.out ++ [.progress 0 f.cur.length]) evs := rfl
  have hv : visited ([.progress 0 f.cur.length] ++ evs) = visited evs := rfl
  rw [t1] at key
  unfold wp at key
  cases hvis : visit c cb calm w with
  | mk res w' =>
    rw [hvis] at key
    refine ⟨res, w', [.progress 0 f.cur.length] ++ evs, rfl, ?_⟩
    rw [hr, hv]
    cases res with
    | ok u =>
      obtain ⟨k1, _, k3, k4⟩ := key
      refine ⟨k1, by rw [k4, List.append_assoc], .inl ⟨rfl, ?_⟩⟩
      rcases t2 with t2 | ⟨e, n, t2, _⟩
      · exact t2.2
      · rw [k3] at t2; cases t2
    | error x =>
      obtain ⟨k1, k2⟩ := key
      refine ⟨k1, ?_⟩
      generalize ht : tour f.cur.length cb (w.out ++ [.progress 0 f.cur.length]) 92 rs = t at *
      generalize hwo : w'.out = wo at *
      cases k2 with
      | callback h =>
        rename_i e
        refine ⟨by rw [t1, List.append_assoc], .inr ?_⟩
        rcases t2 with t2 | ⟨e', n, t2, t3⟩
        · rw [h] at t2; cases t2.1
        · rw [h] at t2; cases t2; exact ⟨e, n, rfl, t3⟩
      | fault _ hfa _ _ => exact absurd hfa not_faulty_calm
      | torn _ hc => rcases hc with h | h | h | h <;> simp at h

/-- A beginning of a sequence of records. -/
private theorem cut_split : ∀ {rs : List Record} {l : Bytes}, (∀ r ∈ rs, r.Ok ks) → l <+: layout rs →
    ∃ rs' tail, rs' <+: rs ∧ l = layout rs' ++ tail ∧ (tail = [] ∨ ∃ x, CutOff ks tail x) := by
  intro rs
  induction rs with
  | nil =>
    intro l _ h
    have : l = [] := by simpa [layout] using h
    exact ⟨[], [], List.prefix_refl _, by simp [this, layout], .inl rfl⟩
  | cons r rs ih =>
    intro l hok h
    by_cases hl : r.bytes.length ≤ l.length
    · rw [layout_cons] at h
      have h1 : r.bytes <+: l := List.prefix_of_prefix_length_le (List.prefix_append _ _) h hl
      obtain ⟨t, rfl⟩ := h1
      rw [List.prefix_append_right_inj] at h
      obtain ⟨rs', tail, a, b, d⟩ := ih (fun r hr => hok r (by simp [hr])) h
      refine ⟨r :: rs', tail, (List.prefix_cons_inj _).mpr a, ?_, d⟩
      rw [b, layout_cons, List.append_assoc]
    · refine ⟨[], l, by simp, by simp [layout], ?_⟩
      rw [layout_cons] at h
      have h1 : l <+: r.bytes := List.prefix_of_prefix_length_le h (List.prefix_append _ _) (by omega)
      by_cases h0 : l.length = 0
      · exact .inl (List.length_eq_zero_iff.mp h0)
      right
      by_cases h6 : l.length < 6
      · exact ⟨_, .size (by omega) h6⟩
      obtain ⟨u, hu⟩ := h1
      have hs : ∀ {o n}, o + n ≤ l.length → bytesAt l o n = slice r.bytes o n := by
        intro o n hn
        rw [← hu, slice_append_left hn]; rfl
      cases r with
      | value k v =>
        obtain ⟨a1, a2, a3⟩ := hok _ List.mem_cons_self
        have e : value (bytesAt l 0 6) = v.length := by
          rw [hs (by omega), value_record, show slice (putU48 v.length ++ (k ++ v)) 0 6 = putU48 v.length from rfl, ← C18_u48.reads _ rfl,
            getU48_putU48 (by omega)]
        refine ⟨_, .value (by omega) (by omega) (by omega) ?_⟩
        rw [e]
        rw [value_record] at hl
        simp at hl
        omega
      | overflow b =>
        have a3 : b.length < 2 ^ 16 := hok _ List.mem_cons_self
        have e : value (bytesAt l 0 6) = 0 := by
          rw [hs (by omega), overflow_record, show slice (putU48 0 ++ (putU16 b.length ++ b)) 0 6 = putU48 0 from rfl, ← C18_u48.reads _ rfl,
            getU48_putU48 (by omega)]
        by_cases h8 : l.length < 8
        · exact ⟨_, .bodySize (by omega) e h8⟩
        have e2 : value (bytesAt l 6 2) = b.length := by
          rw [hs (by omega), overflow_record,
            show slice (putU48 0 ++ (putU16 b.length ++ b)) 6 2 = putU16 b.length from rfl, ← C18_u16.reads _ rfl,
            getU16_putU16 a3]
        refine ⟨_, .body (by omega) e ?_⟩
        rw [e2]
        rw [overflow_record] at hl
        simp at hl
        omega

/-- `visit` on records followed by an incomplete one. -/
private theorem visit_cut {h tail : Bytes} {rs : List Record} {x : Exc} {f : FileSt} {w : World} (hc : CutOff ks tail x)
    (hh : DataHeader ks h) (hok : ∀ r ∈ rs, r.Ok ks) (hf : w.fs .dat = some f) (hF : f.cur = h ++ (layout rs ++ tail)) :
    ∃ w', visit c (fun _ => none) calm w = (.error x, w') ∧ w'.fs = w.fs ∧ visited w'.out = visited w.out ++ values rs := by
  have key := wp_visit (σ := calm) (c := c) (cb := fun _ => none) (x0 := some x) hc hh hf hF hok
  obtain ⟨evs, t1, t2⟩ := tour_spec f.cur.length (fun _ => none) rs (w.out ++ [.progress 0 f.cur.length]) 92
  have hn : ∀ (evs past : List Event) (x : Option Err), x ∈ replies (fun _ => none) past evs → x = none := by
    intro evs
    induction evs with
    | nil => intro past x hx; simp [replies] at hx
    | cons e evs ih =>
      intro past x hx
      cases e with
      | item k v =>
        simp only [replies, List.mem_cons] at hx
        exact hx.elim id (ih _ x)
      | progress n t => exact ih _ x hx
  have t3 : (tour f.cur.length (fun _ => none) (w.out ++ [.progress 0 f.cur.length]) 92 rs).1 = none ∧
      visited evs = values rs := by
    rcases t2 with ⟨a1, a2, _⟩ | ⟨e, n, _, _, _, a4⟩
    · exact ⟨a1, a2⟩
    · have := hn evs _ (some e) (by rw [a4]; simp)
      cases this
  unfold wp at key
  cases hvis : visit c (fun _ => none) calm w with
  | mk res w' =>
    rw [hvis] at key
    cases res with
    | ok u => cases key.2.1
    | error x' =>
      obtain ⟨k1, k2⟩ := key
      generalize ht : tour f.cur.length (fun _ => none) (w.out ++ [.progress 0 f.cur.length]) 92 rs = t at *
      generalize hwo : w'.out = wo at *
      have hu : ∀ {t : Bytes} {x x' : Exc}, CutOff ks t x → CutOff ks t x' → x = x' := by
        intro t x x' h h'
        cases h <;> cases h' <;> first | rfl | omega
      cases k2 with
      | callback h => rw [t3.1] at h; cases h
      | fault _ hfa _ _ => exact absurd hfa not_faulty_calm
      | torn _ hc' =>
        rw [hu hc hc']
        refine ⟨w', rfl, k1, ?_⟩
        rw [hwo, t1, List.append_assoc, visited_append, visited_append, t3.2]
        rfl

/-- C28, as far as it holds: `visit` on a data file cut off anywhere. It reports `short_read` or,
within a value, throws an exception; the pairs before the cut are given to the callback.
Missing from the claim: within a value an exception is thrown instead of an error code
(`C28_cut_value`), and a file that ends with a complete record is taken as complete. -/
theorem C28_truncated_partial {rs : List Record} {D : Bytes} {n : Nat} {f : FileSt} {w : World}
    (hd : DataFile ks D rs) (hf : w.fs .dat = some f) (hn : f.cur = D.take n) :
    ∃ res w', visit c (fun _ => none) calm w = (res, w') ∧ w'.fs = w.fs ∧
      ((f.cur.length < 92 ∧ res = .error (.err .short_read) ∧ w'.out = w.out) ∨
        ∃ rs' tail, rs' <+: rs ∧ D.take n = D.take 92 ++ (layout rs' ++ tail) ∧
          visited w'.out = visited w.out ++ values rs' ∧
          ((tail = [] ∧ res = .ok ()) ∨ ∃ x, CutOff ks tail x ∧ res = .error x)) := by
  by_cases h92 : f.cur.length < 92
  · refine ⟨.error (.err .short_read), ?_⟩
    have key : wp calm (visit c (fun _ => none)) (fun _ _ => False)
        (fun x w' => x = .err .short_read ∧ w'.fs = w.fs ∧ w'.out = w.out) w := by
      unfold visit
      apply wp_bind
      apply wp_fOpen (by exact hf) _ (fun x hx hfa => absurd hfa not_faulty_calm)
      apply wp_bind
      unfold readDatHeader
      apply wp_bind
      apply wp_fRead_short (f := f) (by exact hf) (by simp only [datHeaderSize]; omega)
        (by simp only [datHeaderSize]; omega) _ (fun x hx hfa => absurd hfa not_faulty_calm)
      exact ⟨rfl, rfl, rfl⟩
    unfold wp at key
    cases hvis : visit c (fun _ => none) calm w with
    | mk res w' =>
      rw [hvis] at key
      cases res with
      | ok u => exact key.elim
      | error x => obtain ⟨rfl, k2, k3⟩ := key; exact ⟨w', rfl, k2, .inl ⟨h92, rfl, k3⟩⟩
  · obtain ⟨h, h1, h2, h3⟩ := hd
    have hl := h1.length
    have hn92 : 92 ≤ n := by
      rw [hn, List.length_take] at h92; omega
    have hD92 : D.take 92 = h := by rw [h2, ← hl]; simp
    have hsplit : D.take n = h ++ (layout rs).take (n - 92) := by
      rw [h2, List.take_append, hl, List.take_of_length_le (by omega)]
    obtain ⟨rs', tail, a1, a2, a3⟩ := cut_split h3 (List.take_prefix (n - 92) (layout rs))
    have hok' : ∀ r ∈ rs', r.Ok ks := fun r hr => h3 r (a1.subset hr)
    have hF : f.cur = h ++ (layout rs' ++ tail) := by rw [hn, hsplit, a2]
    have hT : D.take n = D.take 92 ++ (layout rs' ++ tail) := by rw [hD92, hsplit, a2]
    rcases a3 with rfl | ⟨x, hx⟩
    · cases hvis : visit c (fun _ => none) calm w with
      | mk res w' =>
        obtain ⟨k1, k2⟩ := C27_visit hf ⟨h, h1, by rw [hF, List.append_nil], hok'⟩ hvis
        rcases k2 with ⟨rfl, k3⟩ | ⟨⟨i, hi⟩, _⟩
        · exact ⟨_, w', rfl, k1, .inr ⟨rs', [], a1, hT, k3, .inl ⟨rfl, rfl⟩⟩⟩
        · exact absurd rfl hi
    · obtain ⟨w', k1, k2, k3⟩ := visit_cut (c := c) hx h1 hok' hf hF
      exact ⟨_, w', k1, k2, .inr ⟨rs', tail, a1, hT, k3, .inr ⟨x, hx, rfl⟩⟩⟩

/-- C28 fails if the file ends within a value: an exception escapes (visit.ipp 69-73 does not
look at the error of `prepare`). -/
theorem C28_cut_value {rs : List Record} {D k v t : Bytes} {f : FileSt} {w : World} (hd : DataFile ks D rs)
    (hk : (Record.value k v).Ok ks) (ht : t <+: k ++ v) (hlt : t ≠ k ++ v) (hf : w.fs .dat = some f)
    (hF : f.cur = D ++ (bigEndian 6 v.length ++ t)) :
    ∃ w', visit c (fun _ => none) calm w = (.error .throw, w') ∧ visited w'.out = visited w.out ++ values rs := by
  obtain ⟨h, h1, h2, h3⟩ := hd
  have htl : t.length < k.length + v.length := by
    rcases Nat.lt_or_ge t.length (k.length + v.length) with h | h
    · exact h
    · exact absurd (ht.eq_of_length_le (by simpa using h)) hlt
  obtain ⟨a1, a2, a3⟩ := hk
  have hb : bigEndian 6 v.length = putU48 v.length := (C18_u48.layout _).symm
  have e : value (bytesAt (bigEndian 6 v.length ++ t) 0 6) = v.length := by
    rw [hb, bytesAt_eq, show slice (putU48 v.length ++ t) 0 6 = putU48 v.length from rfl, ← C18_u48.reads _ rfl,
      getU48_putU48 (by omega)]
  have hl6 : (bigEndian 6 v.length).length = 6 := by rw [hb]; rfl
  have hc : CutOff ks (bigEndian 6 v.length ++ t) .throw := by
    refine .value (by simp [hl6]) (by omega) (by omega) ?_
    rw [e]; simp [hl6]; omega
  obtain ⟨w', k1, k2, k3⟩ := visit_cut (c := c) hc h1 h3 hf (by rw [hF, h2]; simp)
  exact ⟨w', k1, k3⟩

/-- C46 for `visit`, on arbitrary files, with arbitrary callbacks and faults. -/
theorem C46_visit (cb : List Event → Option Err) (σ : Schedule) (w : World) :
    ∃ evs, (visit c cb σ w).2.out = w.out ++ evs ∧ Steady evs := by
  have h := wp_visit_any (σ := σ) (c := c) (cb := cb) (w := w)
  unfold wp at h
  split at h
  · rename_i e; rw [e]; exact h
  · rename_i e; rw [e]; exact h

/-- A data file with two values and an overflow record between them. -/
def demoRecords : List Record :=
  [.value [1, 2] [10], .overflow [0, 0, 0, 0, 0, 0, 0, 0], .value [3, 4] [20, 21, 22]]

def demoHeader : Bytes :=
  [0x6e, 0x75, 0x64, 0x62, 0x2e, 0x64, 0x61, 0x74, 0, 2] ++ zeros 16 ++ [0, 2] ++ zeros 64

theorem demo_data_file : DataFile 2 (demoHeader ++ layout demoRecords) demoRecords := by
  refine ⟨demoHeader, ⟨by decide, by decide, by decide, by decide, by decide⟩, rfl, ?_⟩
  intro r hr
  simp only [demoRecords, List.mem_cons, List.not_mem_nil, or_false] at hr
  rcases hr with rfl | rfl | rfl
  · exact ⟨rfl, by decide, by decide⟩
  · show (_ : List UInt8).length < _; decide
  · exact ⟨rfl, by decide, by decide⟩

private def only (D : Bytes) : World := ⟨fun p => if p = .dat then some (.clean D) else none, 0, []⟩

/- `C27_visit`: the pairs of this file are visited. -/
example : ∃ w', visit demoCfg (fun _ => none) calm (only (demoHeader ++ layout demoRecords)) = (.ok (), w') ∧
    visited w'.out = [([1, 2], [10]), ([3, 4], [20, 21, 22])] := by
  cases hv : visit demoCfg (fun _ => none) calm (only (demoHeader ++ layout demoRecords)) with
  | mk res w' =>
    rcases (C27_visit (w := only _) rfl demo_data_file hv).2 with ⟨rfl, h⟩ | ⟨⟨i, hi⟩, _⟩
    · exact ⟨w', rfl, h⟩
    · exact absurd rfl hi

/- `C28_callback`: a callback that rejects everything. -/
example : ∃ w', visit demoCfg (fun _ => some .io) calm (only (demoHeader ++ layout demoRecords)) = (.error (.err .io), w') ∧
    visited w'.out = [([1, 2], [10])] := by
  obtain ⟨res, w', evs, h1, _, h0, h⟩ := C28_callback (c := demoCfg) (w := only _) (fun _ => some .io) rfl demo_data_file
  have hl : ∀ (evs past : List Event), replies (fun _ => some Err.io) past evs =
      List.replicate (visited evs).length (some .io) := by
    intro evs
    induction evs with
    | nil => intro past; rfl
    | cons e evs ih =>
      intro past
      cases e with
      | item k v =>
        rw [replies, ih, show visited (.item k v :: evs) = (k, v) :: visited evs from rfl]
        rfl
      | progress n t => rw [replies, ih]; rfl
  rcases h with ⟨_, h2, h3⟩ | ⟨e, n, rfl, _, h3, h4⟩
  · rw [hl, h2] at h3
    have := h3 (some .io) (by rw [List.mem_replicate]; exact ⟨by decide, rfl⟩)
    cases this
  · rw [hl] at h4
    have hn : n = 0 := by
      cases n with
      | zero => rfl
      | succ n =>
        have : none ∈ List.replicate (visited evs).length (some Err.io) := by rw [h4]; simp
        have := (List.mem_replicate.mp this).2
        cases this
    subst hn
    have he : some e ∈ List.replicate (visited evs).length (some Err.io) := by rw [h4]; simp
    cases (List.mem_replicate.mp he).2
    refine ⟨w', h1, ?_⟩
    rw [h0, visited_append, h3]
    rfl

/- `C28_truncated_partial` and `C28_cut_value`: a file that ends within the last value. -/
example : ∃ w', visit demoCfg (fun _ => none) calm
      (only (demoHeader ++ layout (demoRecords.take 2) ++ (bigEndian 6 3 ++ [3, 4, 20]))) = (.error .throw, w') ∧
    visited w'.out = [([1, 2], [10])] :=
  C28_cut_value (ks := 2) (rs := demoRecords.take 2) (k := [3, 4]) (v := [20, 21, 22]) (t := [3, 4, 20]) (w := only _)
    (by obtain ⟨h, h1, h2, h3⟩ := demo_data_file
        exact ⟨demoHeader, ⟨by decide, by decide, by decide, by decide, by decide⟩, rfl, fun r hr => h3 r (List.mem_of_mem_take hr)⟩)
    ⟨rfl, by decide, by decide⟩ (by decide) (by decide) rfl rfl

/- `C27_database`. -/
example : ∃ t fs m, Reachable demoCfg demoArgs False t (none, fs) ∧ fs .log = none ∧ Answers demoCfg 2 fs m := by
  obtain ⟨t, fs, h1, h2⟩ := demo_closed
  obtain ⟨D, K, recs, B, view, h, _⟩ := settled demo_creatable h1 h2
  exact ⟨t, fs, _, h1, h2, h.map⟩

/- `C27_order`: a flush of eight pairs. -/
example : ∃ t s w s' w', Reachable demoCfg demoArgs False t (some s, w.fs) ∧ s.ec = none ∧ s.p1.length = 8 ∧
    perform demoCfg .flush (some s) calm w = (.ok (some s', .done), w') := by
  have h : demoTest demoCfg demoArgs (demoOps.take 9) (fun s w => s.ec == none && s.p1.length == 8 &&
      match perform demoCfg .flush (some s) calm w with
      | (.ok (some _, .done), _) => true
      | _ => false) = true := by decide +kernel
  obtain ⟨rets, s, w, h1, h2⟩ := demo_test (demoOps_sound 9) h
  simp only [Bool.and_eq_true, beq_iff_eq] at h2
  have h3 := h2.2
  split at h3
  · rename_i s' w' e
    exact ⟨_, s, w, s', w', h1, h2.1.1, h2.1.2, e⟩
  · cases h3

end NuDB
