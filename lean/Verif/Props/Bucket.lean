import Verif.Props.Bulk
import Verif.Proof.Fetch
import Verif.Model.Store
import Verif.Proof.Field
import Verif.Props.Codec
/-
C19, C20: buckets in memory and in files.
-/
namespace NuDB

open Spec

namespace Spec

/-- The documented layout of a bucket: count, overflow link, then offset, size and hash of
every entry. -/
def bucketBlob (es : List Entry) (link : Nat) : Bytes :=
  bigEndian 2 es.length ++ bigEndian 6 link ++
    es.flatMap (fun e => bigEndian 6 e.offset ++ bigEndian 6 e.size ++ bigEndian 6 e.hash)

/-- A bucket object for blocks of `bs` bytes that holds these entries and this link. -/
structure BucketIn (bs : Nat) (b : Bkt) (es : List Entry) (link : Nat) : Prop where
  size : b.size = es.length
  spill : b.spill = link
  blob : bucketBlob es link <+: b.p
  len : b.p.length = bs
  bs : b.bs = bs

/-- The fields fit the file format. -/
def Storable (es : List Entry) (link : Nat) : Prop :=
  (∀ e ∈ es, e.offset < 2 ^ 48 ∧ e.size < 2 ^ 32 ∧ e.hash < 2 ^ 48) ∧ link < 2 ^ 48

/-- A bucket object whose content is arbitrary. -/
def Memory (bs : Nat) (b : Bkt) : Prop := b.bs = bs ∧ b.p.length = bs

end Spec

theorem putU16_be (n : Nat) : putU16 n = bigEndian 2 n := C18_u16.layout n

theorem putU48_be (n : Nat) : putU48 n = bigEndian 6 n := C18_u48.layout n

theorem putU64_be (n : Nat) : putU64 n = bigEndian 8 n := C18_u64.layout n

theorem encEntries_be (es : List Entry) : encEntries es =
    es.flatMap (fun e => bigEndian 6 e.offset ++ bigEndian 6 e.size ++ bigEndian 6 e.hash) := by
  induction es with
  | nil => rfl
  | cons e es ih => rw [encEntries, List.flatMap_cons, ← ih, Bkt.putEntry, putU48_be, putU48_be, putU48_be]

theorem encBkt_be (es : List Entry) (s : Nat) : encBkt es s = bucketBlob es s := by
  rw [encBkt, bucketBlob, putU16_be, putU48_be, encEntries_be]

theorem rep_iff {bs : Nat} {b : Bkt} {es : List Entry} {s : Nat} (hbs : bs < 2 ^ 16) (hs : Storable es s) :
    BucketIn bs b es s ↔ Rep b es s ∧ b.bs = bs := by
  constructor
  · intro h
    refine ⟨⟨h.size, h.spill, ?_, h.len.trans h.bs.symm, by rw [h.bs]; exact hbs, ?_, hs.2⟩, h.bs⟩
    · obtain ⟨t, ht⟩ := h.blob
      exact ⟨t, by rw [encBkt_be, ht]⟩
    · intro e he
      obtain ⟨h1, h2, h3⟩ := hs.1 e he
      exact ⟨h1, h2, h3⟩
  · rintro ⟨h, rfl⟩
    refine ⟨h.size, h.spill, ?_, h.len, rfl⟩
    obtain ⟨t, ht⟩ := h.blob
    exact ⟨t, by rw [← encBkt_be, ht]⟩

theorem Rep.cap {b : Bkt} {es : List Entry} {s : Nat} (r : Rep b es s) (h : 104 ≤ b.bs) :
    es.length ≤ bucketCapacity b.bs ∧ bucketSize (bucketCapacity b.bs) ≤ b.bs := by
  have := r.room
  unfold bucketCapacity keyHeaderSize bucketSize at *
  rw [if_neg (by simp; omega)]
  omega

theorem slice_writeAt_same {f bs : Bytes} {o : Nat} : slice (writeAt f o bs) o bs.length = bs := by
  unfold writeAt
  split
  · rename_i h; subst h; simp
  · simp only [put, List.append_assoc]
    exact slice_mid' (by simp; omega) rfl

/-- Reading a compact bucket through the sequential reader. -/
theorem wp_readBulk {c : Cfg} {σ : Schedule} {b : Bkt} {r : Reader} {f : FileSt} {w : World} {X : Exc → World → Prop}
    {Q : Bkt × Reader → World → Prop} {es : List Entry} {s : Nat}
    (hf : w.fs r.path = some f) (hr : RInv r f.cur)
    (hb : b.p.length = b.bs) (hbs : b.bs < 2 ^ 16) (hroom : bucketSize es.length ≤ b.bs)
    (hfit : ∀ e ∈ es, e.Fit) (hs : s < 2 ^ 48) (hle : r.pos + bucketSize es.length ≤ r.last)
    (hd : slice f.cur r.pos (bucketSize es.length) = encBkt es s)
    (hQ : ∀ b' r' w', RInv r' f.cur → r'.pos = r.pos + bucketSize es.length → r'.last = r.last → w'.fs = w.fs →
      Rep b' es s → b'.bs = b.bs → Q (b', r') w')
    (hX : ∀ x w', IsFault x → Faulty σ → w'.fs = w.fs → X x w') :
    wp σ (b.readBulk c r) Q X w := by
  have hsz : bucketSize es.length = 8 + es.length * 18 := by simp [bucketSize]
  have hes : es.length < 2 ^ 16 := by omega
  have hd1 : slice f.cur r.pos 8 = putU16 es.length ++ putU48 s := by
    have : slice (slice f.cur r.pos (bucketSize es.length)) 0 8 = slice f.cur (r.pos + 0) 8 := slice_slice (by omega)
    rw [Nat.add_zero] at this
    rw [← this, hd, encBkt]
    exact slice_mid' (x := []) (y := putU16 es.length ++ putU48 s) (z := encEntries es) (o := 0) (n := 8) rfl rfl
  have hd2 : slice f.cur (r.pos + 8) (es.length * 18) = encEntries es := by
    have : slice (slice f.cur r.pos (bucketSize es.length)) 8 (es.length * 18) = slice f.cur (r.pos + 8) (es.length * 18) :=
      slice_slice (by omega)
    rw [← this, hd, encBkt]
    have := slice_mid' (x := putU16 es.length ++ putU48 s) (y := encEntries es) (z := []) (o := 8) (n := es.length * 18) rfl (by simp)
    simpa using this
  unfold Bkt.readBulk
  apply wp_bind
  unfold Bkt.readHead
  apply wp_bind
  apply wp_prepare hf hr
  · intro r1 w1 h1 h2 h3
    simp only [hd1]
    apply wp_bind
    have e1 : slice (putU16 es.length ++ putU48 s) 0 2 = putU16 es.length := rfl
    have e2 : slice (putU16 es.length ++ putU48 s) 2 6 = putU48 s := rfl
    rw [e1, e2, getU16_putU16 hes, getU48_putU48 hs]
    apply wp_lift_ok (update_ok (hd := b.p.take 8) (rest := b.p.drop 8) (by simp) (by simp; omega) hes hs)
    apply wp_ret
    simp only
    unfold Bkt.readBody
    apply wp_bind
    apply wp_prepare (f := f) (by rw [h1.path, h2]; exact hf) h1.inv
    · intro r2 w2 g1 g2 g3
      simp only [h1.pos, hd2]
      apply wp_bind
      have e : putU16 es.length ++ putU48 s ++ b.p.drop 8 =
          (putU16 es.length ++ putU48 s) ++ ((b.p.drop 8).take (es.length * 18) ++ (b.p.drop 8).drop (es.length * 18)) := by
        rw [List.take_append_drop]
      rw [e]
      apply wp_lift_ok (poke_mid (by rfl) (by simp; omega))
      apply wp_ret
      refine hQ _ r2 w2 g1.inv (by rw [g1.pos, h1.pos]; show _ + es.length * 18 = _; omega) (g1.last.trans h1.last) (g2.trans h2)
        ⟨rfl, rfl, ⟨(b.p.drop 8).drop (es.length * 18), ?_⟩, ?_, hbs, hfit, hs⟩ rfl
      · simp [encBkt]
      · simp; omega
    · intro h
      have h : r1.pos + es.length * 18 > r1.last := h
      rw [h1.pos, h1.last] at h
      omega
    · intro x hx hfa _ _
      exact hX x _ hx hfa h2
  · intro h; omega
  · intro x hx hfa _ _
    exact hX x _ hx hfa rfl

section
variable {bs : Nat} {b b₀ : Bkt} {es : List Entry} {link : Nat}

/-- What reading a bucket back must give: the same entries in the same order, each accessible
by its number, and the same overflow link. -/
def Spec.Same (bs : Nat) (b : Bkt) (es : List Entry) (link : Nat) : Prop :=
  BucketIn bs b es link ∧ ∀ i (h : i < es.length), b.get i = .ok es[i]

theorem Rep.same (hbs : bs < 2 ^ 16) (hs : Storable es link) (h : Rep b es link) (h' : b.bs = bs) : Same bs b es link :=
  ⟨(rep_iff hbs hs).mpr ⟨h, h'⟩, fun _ hi => h.get hi⟩

/-- How an execution disturbed by the environment ends. -/
def Spec.Hurt (σ : Schedule) (res : Except Exc α) : Prop :=
  Disturbed σ ∧ (res = .error .crash ∨ res = .error (.err .io))

theorem hurt_of {σ : Schedule} {x : Exc} (h : IsFault x) (hf : Faulty σ) : Hurt σ (.error x : Except Exc α) := by
  rcases h with rfl | rfl
  · exact ⟨hf, .inl rfl⟩
  · exact ⟨hf, .inr rfl⟩

/-- C19 for key file blocks: a bucket written to any position of a file and read into a bucket
object with any previous content. The block in the file is the documented layout followed by
zeros. -/
theorem C19_key_block (hbs : 104 ≤ bs ∧ bs < 2 ^ 16) (hs : Storable es link) (hb : BucketIn bs b es link)
    (hm : Memory bs b₀) {p : Path} {f : FileSt} {off : Nat} {σ : Schedule} {w w' : World} {res : Except Exc Bkt}
    (hf : w.fs p = some f)
    (h : (do b.writeFile p off; b₀.readFile p off) σ w = (res, w')) :
    (∃ b' F, res = .ok b' ∧ Same bs b' es link ∧ bytesOf w'.fs p = some F ∧
      (F.drop off).take bs = bucketBlob es link ++ zeros (bs - (bucketBlob es link).length)) ∨ Hurt σ res := by
  obtain ⟨r, hbb⟩ := (rep_iff hbs.2 hs).mp hb
  obtain ⟨hm1, hm2⟩ := hm
  have hroom := r.room
  have hcap := r.cap (by omega)
  rw [hbb] at hroom hcap
  have key : wp σ (do b.writeFile p off; b₀.readFile p off)
      (fun b' w' => Same bs b' es link ∧ ∃ F, bytesOf w'.fs p = some F ∧
        (F.drop off).take bs = bucketBlob es link ++ zeros (bs - (bucketBlob es link).length))
      (fun x _ => IsFault x ∧ Faulty σ) w := by
    apply wp_bind
    unfold Bkt.writeFile
    apply wp_bind
    apply wp_lift_ok r.padded
    generalize hblk : encBkt es link ++ zeros (b.bs - bucketSize es.length) = blk
    have hbl : blk.length = bs := by rw [← hblk]; simp; omega
    apply wp_fWrite hf
    · generalize hf' : f.push (.write off blk) = f'
      have hcur : f'.cur = writeAt f.cur off blk := by rw [← hf', cur_push]; rfl
      have hsl : slice f'.cur off bs = blk := by
        rw [hcur, ← hbl]; exact slice_writeAt_same
      have hne : blk ≠ [] := by intro e; rw [e] at hbl; simp at hbl; omega
      have hlen : off + bs ≤ f'.cur.length := by rw [hcur, writeAt_length hne]; omega
      refine wp_readFile (w := w.tick _) (f := f') (es := es) (s := link)
        (t := (zeros (b.bs - bucketSize es.length)).take (bucketSize (bucketCapacity bs) - bucketSize es.length))
        (by simp) (by rw [hm1]; omega) ?_ (by omega) (by rw [hm1]; exact hcap.2) (by omega) r.fit r.sfit (by rw [hm1]; exact hcap.1) ?_ ?_
      · rw [hm1]
        have : slice f'.cur off (bucketSize (bucketCapacity bs)) = slice (slice f'.cur off bs) 0 (bucketSize (bucketCapacity bs)) := by
          rw [slice_slice (by omega)]; rfl
        rw [this, hsl, ← hblk, ← take_eq_slice, List.take_append, List.take_of_length_le]
        · simp
        · have := hcap.1; simp only [encBkt_length, bucketSize]; omega
      · intro b' g1 g2
        refine ⟨g1.same hbs.2 hs (g2.trans hm1), f'.cur, by simp [bytesOf], ?_⟩
        have : (f'.cur.drop off).take bs = slice f'.cur off bs := rfl
        rw [this, hsl, ← hblk, ← encBkt_be, encBkt_length, hbb]
      · intro x hx hfa; exact ⟨hx, hfa⟩
    · intro x k hx hfa; exact ⟨hx, hfa⟩
  have key := wp_run key h
  cases res with
  | ok b' =>
    obtain ⟨e1, F, e2, e3⟩ := key
    exact .inl ⟨b', F, rfl, e1, e2, e3⟩
  | error x => exact .inr (hurt_of key.1 key.2)

theorem appendable_true (p : Path) : Appendable p (fun _ => True) (fun _ => True) :=
  ⟨fun _ _ _ => trivial, fun _ _ _ _ _ _ => trivial⟩

/-- C19 for overflow records: a full bucket goes to the data file through a writer that may
have buffered data; the bucket object is empty then and linked to the record; reading the
record gives the old content. The record starts with a zero and the size of the bucket. -/
theorem C19_spill (hbs : 104 ≤ bs ∧ bs < 2 ^ 16) (hs : Storable es link) (hb : BucketIn bs b es link)
    (hfull : es.length = (bs - 8) / 18) (hm : Memory bs b₀) {f : FileSt} {wr : Writer} {σ : Schedule} {w w' : World}
    {res : Except Exc (Bkt × Bkt)} (hf : w.fs .dat = some f) (hp : wr.path = .dat) (ho : wr.offset = f.cur.length)
    (hc : wr.data.length ≤ wr.cap) (hbig : f.cur.length + wr.data.length + 8 < 2 ^ 48)
    (h : (do
      let (b1, wr) ← maybeSpill b wr
      let _ ← wr.flush
      let b2 ← b₀.readFile .dat b1.spill
      M.ret (b1, b2)) σ w = (res, w')) :
    (∃ b1 b2, res = .ok (b1, b2) ∧ Same bs b1 [] (f.cur.length + wr.data.length + 8) ∧ Same bs b2 es link ∧
      bytesOf w'.fs .dat = some (f.cur ++ wr.data ++ bigEndian 6 0 ++ bigEndian 2 (bucketBlob es link).length ++
        bucketBlob es link)) ∨ Hurt σ res := by
  obtain ⟨r, hbb⟩ := (rep_iff hbs.2 hs).mp hb
  obtain ⟨hm1, hm2⟩ := hm
  have hroom := r.room
  have hcap := r.cap (by omega)
  rw [hbb] at hroom hcap
  have hcapv : bucketCapacity bs = (bs - 8) / 18 := by
    unfold bucketCapacity keyHeaderSize
    rw [if_neg (by simp; omega)]
  have hw : WInv0 wr .dat w.fs (f.cur ++ wr.data) := ⟨hp, ⟨f, hf, rfl, ho⟩, hc⟩
  have hact : b.actualSize = bucketSize es.length := by rw [Bkt.actualSize, r.size]
  have key : wp σ (do
      let (b1, wr) ← maybeSpill b wr
      let _ ← wr.flush
      let b2 ← b₀.readFile .dat b1.spill
      M.ret (b1, b2))
      (fun a w' => Same bs a.1 [] (f.cur.length + wr.data.length + 8) ∧ Same bs a.2 es link ∧
        bytesOf w'.fs .dat = some (f.cur ++ wr.data ++ bigEndian 6 0 ++ bigEndian 2 (bucketBlob es link).length ++
          bucketBlob es link))
      (XP σ (fun _ => True) True True) w := by
    apply wp_bind
    unfold maybeSpill
    rw [if_pos (by simp only [Bkt.full, hbb, r.size, hcapv, hfull]; simp)]
    simp only
    apply wp_bind
    apply wp_lift_ok r.compact
    apply wp_bind
    apply wp_lift_ok (assert_ok (by simp [hact]; omega))
    apply wp_bind
    apply wp_wappend0 hw trivial (appendable_true _) trivial
    intro wr1 w1 hw1 _ _ _ _
    apply wp_bind
    apply wp_lift_ok (clear_ok r.len)
    have hempty : Rep ⟨b.bs, 0, 0, zeros b.bs⟩ [] 0 := rep_empty (by omega) r.bs
    have hpos : wr.pos + (6 + 2) = f.cur.length + wr.data.length + 8 := by rw [hw.pos]; simp
    obtain ⟨b3, h1, h2, h3⟩ := hempty.setSpill (s' := wr.pos + (6 + 2)) (by omega)
    apply wp_bind
    apply wp_lift_ok h1
    apply wp_ret
    simp only
    apply wp_bind
    apply wp_wflush0 hw1 trivial (appendable_true _) trivial
    intro wr2 w2 hw2 hd2 _ _ _ _
    obtain ⟨f2, g1, g2, _⟩ := hw2.file
    rw [hd2, List.append_nil, hact] at g2
    apply wp_bind
    have hsl : slice f2.cur (wr.pos + (6 + 2)) (bucketSize es.length) = encBkt es link := by
      rw [g2, hpos]
      have := slice_mid' (x := f.cur ++ wr.data ++ (putU48 0 ++ putU16 (bucketSize es.length))) (y := encBkt es link) (z := [])
        (o := f.cur.length + wr.data.length + 8) (n := bucketSize es.length) (by simp; omega) (by simp)
      simpa using this
    have hlen : f2.cur.length = f.cur.length + wr.data.length + 8 + bucketSize es.length := by
      rw [g2]; simp; omega
    have hce : bucketCapacity b₀.bs = es.length := by rw [hm1, hcapv, hfull]
    refine wp_readFile (f := f2) (es := es) (s := link) (t := []) g1 (by rw [h2.spill, hce, hlen]; omega)
      (by rw [h2.spill, hce, hsl]; simp) (by omega) (by rw [hce]; omega) (by omega) r.fit r.sfit (by omega) ?_ ?_
    · intro b' k1 k2
      apply wp_ret
      refine ⟨?_, k1.same hbs.2 hs (k2.trans hm1), ?_⟩
      · rw [← hpos]
        exact h2.same hbs.2 ⟨by simp, by omega⟩ (h3.trans hbb)
      · simp only [tick_fs, bytesOf, g1, Option.map_some, g2, putU48_be, putU16_be, encBkt_be, List.append_assoc]
        rw [← encBkt_be, encBkt_length]
    · intro x hx hfa; exact ⟨trivial, .inl ⟨hx, hfa⟩⟩
  have key := wp_run key h
  cases res with
  | ok a =>
    obtain ⟨e1, e2, e3⟩ := key
    exact .inl ⟨a.1, a.2, rfl, e1, e2, e3⟩
  | error x =>
    rcases key.2 with h | h
    · exact .inr (hurt_of h.1 h.2)
    · exact absurd trivial h.2.1

/-- C19 for log records: the record of a bucket goes to the log through a writer that may have
buffered data; a sequential reader with any buffer size that starts there gets the number of
the bucket and the content back. -/
theorem C19_log (c : Cfg) (hbs : 104 ≤ bs ∧ bs < 2 ^ 16) (hs : Storable es link) (hb : BucketIn bs b es link)
    (hm : Memory bs b₀) {n : Nat} (hn : n < 2 ^ 64) {f : FileSt} {wr : Writer} {σ : Schedule} {w w' : World}
    {bufferSize : Nat} {res : Except Exc (Nat × Bkt)} (hf : w.fs .log = some f) (hp : wr.path = .log)
    (ho : wr.offset = f.cur.length) (hc : wr.data.length ≤ wr.cap)
    (h : (do
      let start := wr.pos
      let wr ← logRecords bs [(n, b.p)] wr
      let _ ← wr.flush
      let size ← fSize .log
      let (is, r) ← (Reader.new c .log start size bufferSize).prepare c 8
      let (b2, _) ← b₀.readBulk c r
      M.ret (getU64 is, b2)) σ w = (res, w')) :
    (∃ b2, res = .ok (n, b2) ∧ Same bs b2 es link ∧
      bytesOf w'.fs .log = some (f.cur ++ wr.data ++ bigEndian 8 n ++ bucketBlob es link)) ∨ Hurt σ res := by
  obtain ⟨r, hbb⟩ := (rep_iff hbs.2 hs).mp hb
  obtain ⟨hm1, hm2⟩ := hm
  have hroom := r.room
  rw [hbb] at hroom
  have hw : WInv0 wr .log w.fs (f.cur ++ wr.data) := ⟨hp, ⟨f, hf, rfl, ho⟩, hc⟩
  have key : wp σ (do
      let start := wr.pos
      let wr ← logRecords bs [(n, b.p)] wr
      let _ ← wr.flush
      let size ← fSize .log
      let (is, r) ← (Reader.new c .log start size bufferSize).prepare c 8
      let (b2, _) ← b₀.readBulk c r
      M.ret (getU64 is, b2))
      (fun a w' => a.1 = n ∧ Same bs a.2 es link ∧
        bytesOf w'.fs .log = some (f.cur ++ wr.data ++ bigEndian 8 n ++ bucketBlob es link))
      (XP σ (fun _ => True) True True) w := by
    simp only
    apply wp_bind
    unfold logRecords
    apply wp_bind
    apply wp_lift_ok (by rw [← hbb]; exact r.reload)
    apply wp_bind
    apply wp_lift_ok r.compact
    apply wp_bind
    apply wp_wappend0 hw trivial (appendable_true _) trivial
    intro wr1 w1 hw1 _ _ _ _
    unfold logRecords
    apply wp_ret
    apply wp_bind
    apply wp_wflush0 hw1 trivial (appendable_true _) trivial
    intro wr2 w2 hw2 hd2 _ _ _ _
    obtain ⟨f2, g1, g2, _⟩ := hw2.file
    rw [hd2, List.append_nil] at g2
    have hpos : wr.pos = f.cur.length + wr.data.length := by rw [hw.pos]; simp
    have hlen : f2.cur.length = f.cur.length + wr.data.length + 8 + bucketSize es.length := by
      rw [g2]; simp; omega
    apply wp_bind
    apply wp_fSize g1
    · apply wp_bind
      apply wp_prepare (f := f2) (by exact g1) (rinv_new c .log (by omega) (by omega))
      · intro r3 w3 k1 k2 _
        have e1 : slice f2.cur (Reader.new c .log wr.pos f2.cur.length bufferSize).pos 8 = putU64 n := by
          show slice f2.cur wr.pos 8 = _
          rw [g2]
          exact slice_mid' (x := f.cur ++ wr.data) (y := putU64 n) (z := encBkt es link) (by simp [hpos]) rfl
        have hp3 : r3.pos = wr.pos + 8 := k1.pos
        have hl3 : r3.last = f2.cur.length := k1.last
        simp only [e1, getU64_putU64 hn]
        apply wp_bind
        refine wp_readBulk (f := f2) (es := es) (s := link) (by rw [k1.path, k2]; exact g1) k1.inv (by omega) (by omega) (by omega)
          r.fit r.sfit (by rw [hp3, hl3]; omega) ?_ ?_ ?_
        · rw [hp3, g2, hpos]
          have := slice_mid' (x := f.cur ++ wr.data ++ putU64 n) (y := encBkt es link) (z := [])
            (o := f.cur.length + wr.data.length + 8) (n := bucketSize es.length) (by simp; omega) (by simp)
          simpa using this
        · intro b' r' w' _ _ _ l1 l2 l3
          apply wp_ret
          refine ⟨rfl, l2.same hbs.2 hs (l3.trans hm1), ?_⟩
          rw [bytesOf, l1, k2]
          simp only [tick_fs, g1, Option.map_some, g2, putU64_be, encBkt_be, List.append_assoc]
        · intro x w' hx hfa _; exact ⟨trivial, .inl ⟨hx, hfa⟩⟩
      · intro hgt
        have hgt : wr.pos + 8 > f2.cur.length := hgt
        omega
      · intro x hx hfa _ _; exact ⟨trivial, .inl ⟨hx, hfa⟩⟩
    · intro x hx hfa; exact ⟨trivial, .inl ⟨hx, hfa⟩⟩
  have key := wp_run key h
  cases res with
  | ok a =>
    obtain ⟨a1, a2⟩ := a
    obtain ⟨e1, e2, e3⟩ := key
    exact .inl ⟨a2, by rw [show a1 = n from e1], e2, e3⟩
  | error x =>
    rcases key.2 with h | h
    · exact .inr (hurt_of h.1 h.2)
    · exact absurd trivial h.2.1

/-- Entries ordered by hash. -/
def Spec.Ascending (es : List Entry) : Prop := es.Pairwise (fun a b => a.hash ≤ b.hash)

/-- C20, search: `lower_bound` returns the number `i` of entries with a smaller hash; these
come first, and the entries with the hash looked for are exactly those met when scanning from
`i` as long as the hash is equal. -/
theorem C20_search (hbs : 104 ≤ bs ∧ bs < 2 ^ 16) (hs : Storable es link) (hb : BucketIn bs b es link)
    (ho : Ascending es) (h : Nat) :
    ∃ i, b.lowerBound h = .ok i ∧ i ≤ es.length ∧
      (∀ e ∈ es.take i, e.hash < h) ∧ (∀ e ∈ es.drop i, h ≤ e.hash) ∧
      (es.drop i).takeWhile (fun e => e.hash == h) = es.filter (fun e => e.hash == h) := by
  obtain ⟨r, hbb⟩ := (rep_iff hbs.2 hs).mp hb
  obtain ⟨i, h1, h2⟩ := r.lowerBound ho h
  have hlo : ∀ e ∈ es.take i, e.hash < h := by
    intro e he
    obtain ⟨j, hj, rfl⟩ := List.mem_iff_getElem.mp he
    simp only [List.length_take] at hj
    rw [List.getElem_take]
    exact h2.lo j (by omega) (by omega)
  have hhi : ∀ e ∈ es.drop i, h ≤ e.hash := by
    intro e he
    obtain ⟨j, hj, rfl⟩ := List.mem_iff_getElem.mp he
    simp only [List.length_drop] at hj
    rw [List.getElem_drop]
    exact h2.hi (i + j) (by omega) (by omega)
  refine ⟨i, h1, h2.le, hlo, hhi, ?_⟩
  have tw : ∀ l : List Entry, Ascending l → (∀ e ∈ l, h ≤ e.hash) →
      l.takeWhile (fun e => e.hash == h) = l.filter (fun e => e.hash == h) := by
    intro l
    induction l with
    | nil => intro _ _; rfl
    | cons e l ih =>
      intro ha hl
      have hp := List.pairwise_cons.mp ha
      by_cases he : e.hash = h
      · rw [List.takeWhile_cons_of_pos (by simp [he]), List.filter_cons_of_pos (by simp [he]),
          ih hp.2 (fun x hx => hl x (by simp [hx]))]
      · rw [List.takeWhile_cons_of_neg (by simp [he]), List.filter_cons_of_neg (by simp [he])]
        symm
        rw [List.filter_eq_nil_iff]
        intro x hx
        have h3 := hp.1 x hx
        have h4 := hl e (by simp)
        simp only [beq_iff_eq]
        omega
  have hd : Ascending (es.drop i) := List.Pairwise.sublist (List.drop_sublist _ _) ho
  rw [tw _ hd hhi]
  have : es.filter (fun e => e.hash == h) = (es.take i ++ es.drop i).filter (fun e => e.hash == h) := by
    rw [List.take_append_drop]
  rw [this, List.filter_append, (List.filter_eq_nil_iff (l := es.take i)).mpr, List.nil_append]
  intro x hx
  have := hlo x hx
  simp only [beq_iff_eq]; omega

/-- C20, insertion: if there is room the bucket then holds the entries from before, in their
order, and the new one in front of those with equal or larger hash. -/
theorem C20_insert (hbs : 104 ≤ bs ∧ bs < 2 ^ 16) (hs : Storable es link) (hb : BucketIn bs b es link)
    (ho : Ascending es) (hroom : es.length < (bs - 8) / 18) (e : Entry)
    (he : e.offset < 2 ^ 48 ∧ e.size < 2 ^ 32 ∧ e.hash < 2 ^ 48) :
    ∃ b' es₁ es₂, b.insert e.offset e.size e.hash = .ok b' ∧ es = es₁ ++ es₂ ∧
      Same bs b' (es₁ ++ e :: es₂) link ∧ Ascending (es₁ ++ e :: es₂) ∧
      (∀ x ∈ es₁, x.hash < e.hash) ∧ (∀ x ∈ es₂, e.hash ≤ x.hash) := by
  obtain ⟨r, hbb⟩ := (rep_iff hbs.2 hs).mp hb
  obtain ⟨b', h1, h2, h3⟩ := r.insert ho (o := e.offset) (sz := e.size) (h := e.hash) ⟨he.1, he.2.1, he.2.2⟩
    (by rw [hbb]; simp only [bucketSize]; omega)
  obtain ⟨i, h4, h5⟩ := r.lowerBound ho e.hash
  have heq : insSorted e es = es.take i ++ e :: es.drop i := insSorted_eq h5
  have hst : Storable (insSorted e es) link := by
    refine ⟨?_, hs.2⟩
    intro x hx
    rcases insSorted_mem.mp hx with rfl | hx
    · exact he
    · exact hs.1 x hx
  refine ⟨b', es.take i, es.drop i, h1, (List.take_append_drop _ _).symm, ?_, ?_, ?_, ?_⟩
  · rw [← heq]; exact h2.same hbs.2 hst (h3.trans hbb)
  · rw [← heq]; exact insSorted_sorted ho
  · intro x hx
    obtain ⟨j, hj, rfl⟩ := List.mem_iff_getElem.mp hx
    simp only [List.length_take] at hj
    rw [List.getElem_take]
    exact h5.lo j (by omega) (by omega)
  · intro x hx
    obtain ⟨j, hj, rfl⟩ := List.mem_iff_getElem.mp hx
    simp only [List.length_drop] at hj
    rw [List.getElem_drop]
    exact h5.hi (i + j) (by omega) (by omega)

/-- C20, removal: the bucket then holds the other entries in their order. -/
theorem C20_erase (hbs : 104 ≤ bs ∧ bs < 2 ^ 16) (hs : Storable es link) (hb : BucketIn bs b es link)
    (ho : Ascending es) {i : Nat} (hi : i < es.length) :
    ∃ b', b.erase i = .ok b' ∧ Same bs b' (es.take i ++ es.drop (i + 1)) link ∧
      Ascending (es.take i ++ es.drop (i + 1)) := by
  obtain ⟨r, hbb⟩ := (rep_iff hbs.2 hs).mp hb
  obtain ⟨b', h1, h2, h3⟩ := r.erase hi
  rw [List.eraseIdx_eq_take_drop_succ] at h2
  have hsub : (es.take i ++ es.drop (i + 1)).Sublist es := by
    rw [← List.eraseIdx_eq_take_drop_succ]; exact List.eraseIdx_sublist _ _
  exact ⟨b', h1, h2.same hbs.2 ⟨fun e he => hs.1 e (hsub.subset he), hs.2⟩ (h3.trans hbb),
    List.Pairwise.sublist hsub ho⟩

/-- Five entries, three of them with equal hashes: a full bucket for blocks of 104 bytes. -/
def fiveEntries : List Entry := [⟨92, 1, 5⟩, ⟨2 ^ 48 - 1, 2 ^ 32 - 1, 7⟩, ⟨300, 3, 7⟩, ⟨400, 4, 7⟩, ⟨500, 5, 2 ^ 48 - 1⟩]

/-- The bucket object. -/
def fiveBucket : Bkt := ⟨104, 5, 1000, bucketBlob fiveEntries 1000 ++ [1, 2, 3, 4, 5, 6]⟩

/-- An object with other content. -/
def otherBucket : Bkt := ⟨104, 77, 88, List.replicate 104 99⟩

theorem five_storable : Storable fiveEntries 1000 := ⟨by decide, by decide⟩

theorem five_in : BucketIn 104 fiveBucket fiveEntries 1000 :=
  ⟨rfl, rfl, List.prefix_append _ _, by decide +kernel, rfl⟩

/-- The premises of C19 and C20 hold for a full bucket. -/
example : Storable fiveEntries 1000 ∧ BucketIn 104 fiveBucket fiveEntries 1000 ∧ Ascending fiveEntries ∧
    fiveEntries.length = (104 - 8) / 18 ∧ Memory 104 otherBucket :=
  ⟨five_storable, five_in, by unfold Ascending; decide, rfl, rfl, rfl⟩

/-- Writing and reading back a key file block in the middle of a file. -/
example : (let r := (do fiveBucket.writeFile .dat 3; otherBucket.readFile .dat 3) calm bulkWorld
    r.1.toOption.map (fun b => (b.size, b.spill, (List.range 5).map (fun i => (b.get i).toOption)))) =
    some (5, 1000, fiveEntries.map some) := by
  decide +kernel

/-- A spill through a writer with two buffered bytes. -/
example : (let r := (do
      let (b1, wr) ← maybeSpill fiveBucket ⟨.dat, 10, [8, 9], 16⟩
      let _ ← wr.flush
      let b2 ← otherBucket.readFile .dat b1.spill
      M.ret (b1, b2)) calm bulkWorld
    r.1.toOption.map (fun b => (b.1.size, b.1.spill, (List.range 5).map (fun i => (b.2.get i).toOption)))) =
    some (0, 20, fiveEntries.map some) := by
  decide +kernel

/-- A log record behind ten bytes, read with a buffer of three bytes. -/
example : (let r := (do
      let wr ← logRecords 104 [(17, fiveBucket.p)] ⟨.log, 10, [], 16⟩
      let _ ← wr.flush
      let size ← fSize .log
      let (is, r) ← (Reader.new bulkCfg .log 10 size 3).prepare bulkCfg 8
      let (b2, _) ← otherBucket.readBulk bulkCfg r
      M.ret (getU64 is, b2)) calm bulkWorld
    r.1.toOption.map (fun b => (b.1, b.2.spill, (List.range 5).map (fun i => (b.2.get i).toOption)))) =
    some (17, 1000, fiveEntries.map some) := by
  decide +kernel

/-- Searching, removing and inserting. -/
example : (fiveBucket.lowerBound 7).toOption = some 1 ∧ (fiveBucket.lowerBound 8).toOption = some 4 ∧
    ((do let b ← fiveBucket.erase 2; let b ← b.insert 44 55 7; b.get 1).toOption = some ⟨44, 55, 7⟩) := by
  decide +kernel

end

end NuDB
