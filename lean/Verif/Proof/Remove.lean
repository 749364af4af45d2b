import Verif.Proof.Timed
import Verif.Proof.Refine
/- Which log files are removed. -/
namespace NuDB

open Spec

section
variable {σ : Schedule} {w : World} {α β : Type} {kp kp' : Prop}

theorem diesAt_lt {i j : Nat} (h : j < i) : diesAt σ i j = σ j := if_pos h
theorem diesAt_ge {i j : Nat} (h : i ≤ j) : diesAt σ i j = .crash 0 := if_neg (by omega)

theorem diesAt_succ {i j : Nat} (h : j ≠ i) : diesAt σ (i + 1) j = diesAt σ i j := by
  by_cases h1 : j < i
  · rw [diesAt_lt h1, diesAt_lt (by omega)]
  · rw [diesAt_ge (by omega), diesAt_ge (by omega)]

/-- A program that ends before operation `i` ends in the same way without the death. -/
theorem Timed.ends {m : M α} (h : Timed kp m) {i : Nat} (hc : (m (diesAt σ i) w).2.clock ≤ i) :
    m σ w = m (diesAt σ i) w :=
  h.congr _ _ _ (fun j _ hj => (diesAt_lt (by omega)).symm)

theorem Timed.ends_succ {m : M α} (h : Timed kp m) {i : Nat} (hc : (m (diesAt σ i) w).2.clock ≤ i ∨ i < w.clock) :
    m (diesAt σ (i + 1)) w = m (diesAt σ i) w :=
  h.congr _ _ _ (fun j hj hj' => diesAt_succ (by omega))

theorem Timed.ends' {m : M α} (h : Timed kp m) {i : Nat} (hc : (m σ w).2.clock ≤ i) :
    m (diesAt σ i) w = m σ w :=
  h.congr _ _ _ (fun j _ hj => diesAt_lt (by omega))

/-- The operation that removes the log is one of the first or one of the second program. -/
theorem removes_bind {m : M α} {k : α → M β} {f : FileSt} (h : Timed kp m) (hk : ∀ a, Timed kp' (k a))
    (hr : RemovesLog (m >>= k) σ w f) :
    RemovesLog m σ w f ∨ ∃ a w', m σ w = (.ok a, w') ∧ RemovesLog (k a) σ w' f := by
  obtain ⟨i, h1, h2⟩ := hr
  rw [bind_run] at h1 h2
  by_cases hc : (m (diesAt σ i) w).2.clock ≤ i ∨ i < w.clock
  · have e2 := h.ends_succ hc
    rw [e2] at h2
    by_cases hc' : (m (diesAt σ i) w).2.clock ≤ i
    · have e1 := h.ends hc'
      cases e : m (diesAt σ i) w with
      | mk r w' =>
        rw [e] at h1 h2 e1
        cases r with
        | ok a => exact .inr ⟨a, w', e1, i, h1, h2⟩
        | error x => rw [h1] at h2; cases h2
    · have hlt : i < w.clock := by omega
      exfalso
      cases e : m (diesAt σ i) w with
      | mk r w' =>
        have hm := h.mono (diesAt σ i) w
        rw [e] at h1 h2 hm
        cases r with
        | ok a =>
          simp only at h1 h2 hm
          rw [(hk a).ends_succ (.inr (by omega)), h1] at h2
          cases h2
        | error x => rw [h1] at h2; cases h2
  · have hi : w.clock ≤ i := by omega
    have hd := h.dies (diesAt σ i) w i hi (diesAt_ge (Nat.le_refl _)) (by omega)
    left
    refine ⟨i, ?_, ?_⟩
    · cases e : m (diesAt σ i) w with
      | mk r w' =>
        rw [e] at h1 hd
        cases r with
        | ok a => cases hd.2
        | error x => exact h1
    · have hd' := h.dies (diesAt σ (i + 1)) w (i + 1) (by omega) (diesAt_ge (Nat.le_refl _))
      cases e : m (diesAt σ (i + 1)) w with
      | mk r w' =>
        rw [e] at h2 hd'
        cases r with
        | error x => exact h2
        | ok a =>
          by_cases hlt : i + 1 < w'.clock
          · cases (hd' hlt).2
          · by_cases hge : i + 1 = w'.clock
            · exact (hk a).first _ w' (by rw [← hge]; exact diesAt_ge (Nat.le_refl _)) h2
            · exfalso
              have e' := h.congr (diesAt σ (i + 1)) (diesAt σ i) w (by
                intro j _ hj
                rw [e] at hj
                simp only at hj
                exact (diesAt_succ (by omega)).symm)
              rw [e', e] at hc
              simp only at hc
              omega

/-- Every log file that `m` removes satisfies `P`. -/
def rl (P : FileSt → Prop) (m : M α) (σ : Schedule) (w : World) : Prop := ∀ f, RemovesLog m σ w f → P f

variable {P : FileSt → Prop}

theorem rl_bind {m : M α} {k : α → M β} (h : Timed kp m) (hk : ∀ a, Timed kp' (k a)) (h1 : rl P m σ w)
    (h2 : ∀ a w', m σ w = (.ok a, w') → rl P (k a) σ w') : rl P (m >>= k) σ w := by
  intro f hf
  rcases removes_bind h hk hf with hf | ⟨a, w', e, hf⟩
  · exact h1 f hf
  · exact h2 a w' e f hf

theorem rl_attempt {m : M α} (h : rl P m σ w) : rl P (M.attempt m) σ w := by
  rintro f ⟨i, h1, h2⟩
  rw [attempt_world] at h1 h2
  exact h f ⟨i, h1, h2⟩

theorem rl_spares {m : M α} (h : Spares .log m) : rl P m σ w := by
  rintro f ⟨i, h1, h2⟩
  rw [h.go] at h1 h2
  rw [h1] at h2
  cases h2

theorem rl_keep {m : M α} (h : Timed True m) (hl : w.fs .log ≠ none) : rl P m σ w := by
  rintro f ⟨i, h1, h2⟩
  exact absurd h2 (h.keep trivial _ _ hl)

theorem rl_create : rl P (fCreate .log) σ w := by
  rintro f ⟨i, h1, h2⟩
  have h : Timed True (fCreate .log) := Timed.fCreate
  by_cases hl : w.fs .log = none
  · have hc : (fCreate .log (diesAt σ i) w).2.clock = w.clock + 1 := by
      unfold fCreate fileOp; split <;> rfl
    by_cases hi : i = w.clock
    · subst hi
      unfold fCreate fileOp at h1
      rw [diesAt_ge (Nat.le_refl _)] at h1
      dsimp only at h1
      rw [if_neg (by omega), hl] at h1
      cases h1
    · rw [h.ends_succ (by omega), h1] at h2
      cases h2
  · exact absurd h2 (h.keep trivial _ _ hl)

theorem rl_erase (h : ∀ f, w.fs .log = some f → P f) : rl P (fErase .log) σ w := by
  rintro f ⟨i, h1, h2⟩
  have hL : Timed False (fErase .log) := Timed.fErase (.inr id)
  have hc : (fErase .log (diesAt σ i) w).2.clock = w.clock + 1 := by
    unfold fErase fileOp; split <;> rfl
  by_cases hi : i = w.clock
  · subst hi
    unfold fErase fileOp at h1
    rw [diesAt_ge (Nat.le_refl _)] at h1
    exact h f h1
  · rw [hL.ends_succ (by omega), h1] at h2
    cases h2

/-- An empty file, and nothing to sync. -/
def Emptied (f : FileSt) : Prop := ∀ img, Ordered f img ∨ Unordered f img → img = []

theorem emptied_of_stable {f : FileSt} (h : Stable f []) : Emptied f := by
  intro img hi
  rcases hi with (hv | ⟨k, off, bs, j, h1, h2⟩) | hi
  · exact h _ hv
  · have h3 := h _ ⟨k, rfl⟩
    have h4 := h _ ⟨k + 1, rfl⟩
    rw [List.take_add_one, h1] at h4
    simp only [Option.toList_some, List.foldl_append, List.foldl_cons, List.foldl_nil, h3, POp.apply] at h4
    rw [h2, h3]
    simp only [POp.apply]
    unfold writeAt at h4 ⊢
    by_cases hb : bs = []
    · subst hb; simp
    · rw [if_neg hb] at h4
      exact absurd (by have h5 := congrArg List.length h4; simp [put] at h5; exact h5.2) hb
  · exact unordered_stable h hi

theorem rl_clearLog : rl Emptied clearLog σ w := by
  unfold clearLog
  refine rl_bind (kp := True) (kp' := False) Timed.fTrunc (fun _ => .bind .fSync fun _ => .fErase (.inr id)) ?_ ?_
  · by_cases hl : w.fs .log = none
    · rintro f ⟨i, h1, _⟩
      exfalso
      have : (fTrunc .log 0 (diesAt σ i) w).2.fs .log = none := by
        unfold fTrunc fileOp
        split
        · simp only [hl]
        · exact hl
        · exact hl
      rw [this] at h1
      cases h1
    · exact rl_keep Timed.fTrunc hl
  · intro _ w1 e1
    have hl1 : ∃ f, w1.fs .log = some f ∧ f.cur = [] := by
      unfold fTrunc fileOp at e1
      split at e1
      · cases hl : w.fs .log with
        | none => simp only [hl] at e1; cases e1
        | some f =>
          simp only [hl] at e1
          cases e1
          exact ⟨_, Fs.set_same w.fs .log (some (f.push (.trunc 0))), (cur_push f (.trunc 0)).trans (by simp [POp.apply, truncAt, zeros])⟩
      · cases e1
      · cases e1
    obtain ⟨f1, hf1, hc1⟩ := hl1
    refine rl_bind (kp := True) (kp' := False) Timed.fSync (fun _ => .fErase (.inr id)) ?_ ?_
    · exact rl_keep Timed.fSync (by rw [hf1]; exact fun h => by cases h)
    · intro _ w2 e2
      refine rl_erase ?_
      intro f hf
      unfold fSync fileOp at e2
      split at e2
      · simp only [hf1] at e2
        cases e2
        have hf : (w1.fs.set Path.log (some f1.synced)) .log = some f := hf
        rw [Fs.set_same] at hf
        cases hf
        refine emptied_of_stable ?_
        rw [synced_eq, hc1]
        exact stable_clean _
      · cases e2
      · cases e2

theorem rl_truncFiles {lh : LogHeader} : rl Emptied (truncFiles lh) σ w := by
  unfold truncFiles
  refine rl_bind (kp := False) (kp' := False) Timed.fTrunc ?_ (rl_spares (Spares.fTrunc (by decide))) ?_
  · intro _
    refine .bind .fSync fun _ => ?_
    split
    · exact .bind .fTrunc fun _ => .bind .fSync fun _ => Timed.clearLog
    · exact .bind (.fErase (.inr id)) fun _ => Timed.clearLog
  · intro _ w1 _
    refine rl_bind (kp := False) (kp' := False) Timed.fSync ?_ (rl_spares (Spares.fSync (by decide))) ?_
    · intro _
      split
      · exact .bind .fTrunc fun _ => .bind .fSync fun _ => Timed.clearLog
      · exact .bind (.fErase (.inr id)) fun _ => Timed.clearLog
    · intro _ w2 _
      split
      · refine rl_bind (kp := False) (kp' := False) Timed.fTrunc (fun _ => .bind .fSync fun _ => Timed.clearLog)
          (rl_spares (Spares.fTrunc (by decide))) ?_
        intro _ w3 _
        exact rl_bind (kp := False) (kp' := False) Timed.fSync (fun _ => Timed.clearLog)
          (rl_spares (Spares.fSync (by decide))) (fun _ w4 _ => rl_clearLog)
      · exact rl_bind (kp := False) (kp' := False) (Timed.fErase (.inr id)) (fun _ => Timed.clearLog)
          (rl_spares (Spares.fErase (by decide))) (fun _ w4 _ => rl_clearLog)

macro "timeds_" : tactic => `(tactic| repeat' first
    | exact Timed.readDatHeader | exact Timed.eraseFile (.inr id) | exact Timed.clearLog | exact Timed.truncFiles
    | exact Timed.replayLog | exact Timed.attempt Timed.readLogHeader | exact Timed.fOpen | exact Timed.fSize
    | exact Timed.fErase (.inr id) | exact Timed.fail _ | exact Timed.check _ | exact Timed.ret _
    | exact Timed.readKeyHeader | exact Timed.fCreate
    | exact Timed.attempt Timed.fOpen | apply Timed.bind | intro _ | split)

theorem Spares.keep {m : M α} {p : Path} (h : Spares p m) {r : Except Exc α × World} (e : m σ w = r) :
    r.2.fs p = w.fs p := by rw [← e]; exact h.go _ _

/-- What `recover` removes is empty, unless it removes the key file, too. -/
theorem rl_recover (hk : ∀ f, w.fs .key = some f → 104 < f.cur.length) : rl Emptied (recover c) σ w := by
  unfold recover
  refine rl_bind (kp := False) (kp' := False) Timed.fOpen (by timeds_) (rl_spares Spares.fOpen) fun _ w1 e1 => ?_
  refine rl_bind (kp := False) (kp' := False) Timed.fSize (by timeds_) (rl_spares Spares.fSize) fun _ w2 e2 => ?_
  refine rl_bind (kp := False) (kp' := False) Timed.readDatHeader (by timeds_) (rl_spares Spares.readDatHeader) fun _ w3 e3 => ?_
  refine rl_bind (kp := False) (kp' := False) (Timed.check _) (by timeds_) (rl_spares (Spares.check _)) fun _ w4 e4 => ?_
  refine rl_bind (kp := False) (kp' := False) Timed.fOpen (by timeds_) (rl_spares Spares.fOpen) fun _ w5 e5 => ?_
  have ek : w5.fs .key = w.fs .key :=
    (Spares.fOpen.keep e5).trans ((Spares.keep (Spares.check _) e4).trans ((Spares.readDatHeader.keep e3).trans
      ((Spares.fSize.keep e2).trans (Spares.fOpen.keep e1))))
  refine rl_bind (kp := False) (kp' := False) Timed.fSize (by timeds_) (rl_spares Spares.fSize) fun n w6 e6 => ?_
  have hn : 104 < n := by
    unfold fSize fileOp at e6
    split at e6
    · cases h : w5.fs .key with
      | none => simp only [h] at e6; cases e6
      | some f =>
        simp only [h] at e6
        cases e6
        exact hk f (by rw [← ek, h])
    · cases e6
    · cases e6
  rw [if_neg (by unfold keyHeaderSize; omega)]
  refine rl_bind (kp := False) (kp' := False) (Timed.attempt Timed.fOpen) (by timeds_) (rl_spares (Spares.attempt Spares.fOpen)) fun r w7 _ => ?_
  split
  · exact rl_spares (Spares.ret _)
  · exact rl_spares (Spares.fail _)
  · refine rl_bind (kp := False) (kp' := False) Timed.fSize (by timeds_) (rl_spares Spares.fSize) fun _ w8 _ => ?_
    refine rl_bind (kp := False) (kp' := False) (Timed.attempt Timed.readLogHeader) (by timeds_)
      (rl_spares (Spares.attempt Spares.readLogHeader)) fun _ w9 _ => ?_
    split
    · exact rl_clearLog
    · exact rl_spares (Spares.fail _)
    · refine rl_bind (kp := False) (kp' := False) (Timed.check _) (by timeds_) (rl_spares (Spares.check _)) fun _ w10 _ => ?_
      split
      · exact rl_truncFiles
      · exact rl_bind (kp := False) (kp' := False) Timed.replayLog (by timeds_)
          (rl_spares (Spares.replayLog (by decide))) fun _ _ _ => rl_truncFiles

theorem rl_open (hk : ∀ f, w.fs .key = some f → 104 < f.cur.length) : rl Emptied (openStore c) σ w := by
  unfold openStore
  refine rl_bind (kp := False) (kp' := False) Timed.recover (by timeds_) (rl_recover hk) fun _ w1 _ => ?_
  refine rl_bind (kp := False) (kp' := False) Timed.fOpen (by timeds_) (rl_spares Spares.fOpen) fun _ w2 _ => ?_
  refine rl_bind (kp := False) (kp' := False) Timed.fOpen (by timeds_) (rl_spares Spares.fOpen) fun _ w3 _ => ?_
  refine rl_bind (kp := False) (kp' := False) Timed.fCreate (by timeds_) rl_create fun _ w4 _ => ?_
  refine rl_bind (kp := False) (kp' := False) Timed.readDatHeader (by timeds_) (rl_spares Spares.readDatHeader) fun _ w5 _ => ?_
  refine rl_bind (kp := False) (kp' := False) (Timed.check _) (by timeds_) (rl_spares (Spares.check _)) fun _ w6 _ => ?_
  refine rl_bind (kp := False) (kp' := False) Timed.readKeyHeader (by timeds_) (rl_spares Spares.readKeyHeader) fun _ w7 _ => ?_
  refine rl_bind (kp := False) (kp' := False) (Timed.check _) (by timeds_) (rl_spares (Spares.check _)) fun _ w8 _ => ?_
  refine rl_bind (kp := False) (kp' := False) (Timed.check _) (by timeds_) (rl_spares (Spares.check _)) fun _ w9 _ => ?_
  dsimp only
  split
  · exact rl_spares (Spares.fail _)
  · exact rl_spares (Spares.ret _)

/-- The key file is never as short as a key file that `rekey` has just begun. -/
theorem Safe.key_length {cf : Conf} {L : Nat} {G : Bytes → Bytes → Prop} {fs : Fs}
    (hG : ∀ D K, G D K → ∃ recs B view, Db c cf D K recs B view) (h : Safe c cf L G fs) {f : FileSt}
    (hf : fs .key = some f) : 104 < f.cur.length := by
  have len : ∀ D K, G D K → 104 < K.length := by
    intro D K hg
    obtain ⟨recs, B, view, h⟩ := hG D K hg
    have := h.klen
    omega
  cases h with
  | clear df kf D K hd hk hl hg sd sk => rw [hk] at hf; cases hf; rw [sk.cur]; exact len _ _ hg
  | short df kf lf D K hd hk hl hlen hg sd sk img => rw [hk] at hf; cases hf; rw [sk.cur]; exact len _ _ hg
  | long df kf lf D K hd hk hl hlen hg img none =>
    rw [hk] at hf; cases hf
    obtain ⟨_, _, _, _, _, _, _, _, _, _, _, h⟩ := img _ (ordered_cur lf) hlen
    exact Nat.lt_of_lt_of_le (len _ _ hg) (h _ (version_cur f)).le

theorem rl_flush {s : Store} (hl : w.fs .log ≠ none ∨ s.p1 = []) : rl P (flush c s) σ w := by
  rcases hl with hl | hl
  · exact rl_keep Timed.flush hl
  · unfold flush
    rw [if_pos (by simp [hl])]
    exact rl_spares (Spares.ret _)

theorem rl_close {s : Store} (hl : w.fs .log ≠ none ∨ s.p1 = [])
    (h : ∀ s' w', flush c s σ w = (.ok s', w') → s'.ec ≠ none ∨ ∀ f, w'.fs .log = some f → P f) :
    rl P (close c s) σ w := by
  unfold close
  refine rl_bind (kp := False) (kp' := False) Timed.flush (by
    intro s'
    split
    · exact .ret _
    · refine .bind (.attempt (.fErase (.inr id))) fun r => ?_
      split <;> exact .ret _) (rl_flush hl) fun s' w' e => ?_
  split
  · exact rl_spares (Spares.ret _)
  · rename_i hec
    refine rl_bind (kp := False) (kp' := False) (.attempt (.fErase (.inr id))) (by
      intro r
      split <;> exact .ret _) (rl_attempt (rl_erase ((h s' w' e).resolve_left (fun h => h hec)))) fun r _ _ => ?_
    split <;> exact rl_spares (Spares.ret _)

theorem rl_perform {cf : Conf} {short : Prop} {all : List (Bytes × Bytes)} {st : St} {op : Op} {so : Option Store}
    (hR : Rel c cf short all (so, w.fs) st) (ha : Allowed cf.keySize op so) : rl Emptied (perform c op so) σ w := by
  cases hR with
  | closed hL hs =>
    cases op with
    | «open» =>
      unfold perform
      exact rl_bind (kp := False) (kp' := False) (.attempt Timed.openStore) (by timeds_)
        (rl_attempt (rl_open fun f hf => Safe.key_length GoalM.db hs hf)) fun r _ _ => by
          split <;> exact rl_spares (Spares.ret _)
    | _ => exact ha.elim
  | failed he hp hL hs =>
    rename_i s _ _ _
    have hi : ∀ k v, rl Emptied (insert c s k v) σ w := by
      intro k v; unfold insert; rw [he]; exact rl_spares (Spares.fail _)
    have hf : ∀ k, rl Emptied (fetch c s k) σ w := by
      intro k; unfold fetch; rw [he]; exact rl_spares (Spares.fail _)
    have hfl : flush c s = M.ret s := by unfold flush; rw [if_pos (by simp [hp])]
    cases op with
    | «open» => exact ha.elim
    | insert k v =>
      unfold perform
      exact rl_bind (kp := False) (kp' := False) (.attempt Timed.insert) (by timeds_) (rl_attempt (hi k v)) fun r _ _ => by
        split <;> exact rl_spares (Spares.ret _)
    | fetch k =>
      unfold perform
      exact rl_bind (kp := False) (kp' := False) (.attempt Timed.fetch) (by timeds_) (rl_attempt (hf k)) fun r _ _ => by
        split <;> exact rl_spares (Spares.ret _)
    | flush =>
      unfold perform
      exact rl_bind (kp := False) (kp' := False) Timed.flush (by timeds_) (rl_flush (.inr hp)) fun r _ _ => by
        split <;> exact rl_spares (Spares.ret _)
    | close =>
      unfold perform
      refine rl_bind (kp := False) (kp' := False) Timed.close (by timeds_) (rl_close (.inr hp) ?_) fun r _ _ => by
        split <;> exact rl_spares (Spares.ret _)
      intro s' w' e
      rw [hfl] at e
      cases e
      exact .inl (by rw [he]; exact fun h => by cases h)
  | opened hS hz hf =>
    rename_i s D K recs B view base
    have hl : w.fs .log ≠ none := by rw [hS.idle.log]; exact fun h => by cases h
    cases op with
    | «open» => exact ha.elim
    | insert k v =>
      unfold perform
      exact rl_bind (kp := False) (kp' := False) (.attempt Timed.insert) (by timeds_) (rl_attempt (rl_keep Timed.insert hl)) fun r _ _ => by
        split <;> exact rl_spares (Spares.ret _)
    | fetch k =>
      unfold perform
      exact rl_bind (kp := False) (kp' := False) (.attempt Timed.fetch) (by timeds_) (rl_attempt (rl_keep Timed.fetch hl)) fun r _ _ => by
        split <;> exact rl_spares (Spares.ret _)
    | flush =>
      unfold perform
      exact rl_bind (kp := False) (kp' := False) Timed.flush (by timeds_) (rl_flush (.inl hl)) fun r _ _ => by
        split <;> exact rl_spares (Spares.ret _)
    | close =>
      unfold perform
      refine rl_bind (kp := False) (kp' := False) Timed.close (by timeds_) (rl_close (.inl hl) ?_) fun r _ _ => by
        split <;> exact rl_spares (Spares.ret _)
      intro s' w' e
      refine wp_elim (wp_flush (G := fun _ _ => True) (L := logMax cf s.p1.length) hS (fun _ => Nat.le_refl _) trivial
        (fun _ _ _ _ _ _ _ _ _ _ => trivial)
        (Q := fun s' w' => s'.ec ≠ none ∨ ∀ f, w'.fs .log = some f → Emptied f) ?_ ?_) e
      · intro s' w' D1 K1 rs B1 view' hS' _ _ _ _ _ _ _
        refine .inr fun f hf => ?_
        rw [hS'.idle.log] at hf
        cases hf
        exact emptied_of_stable (stable_clean _)
      · intro s' w' _ _ he _
        exact .inl (by rw [he]; exact fun h => by cases h)

end

/-! ### The end of `rekey` -/

/-- The last operation of `m` removes the log file. -/
def EndsErase (m : M Unit) : Prop := ∀ σ w w', m σ w = (.ok (), w') →
  ∃ i wA f, w.clock ≤ i ∧ m (diesAt σ i) w = (.error .crash, wA) ∧ wA.fs .log = some f ∧ w'.fs = wA.fs.set .log none ∧
    w'.clock ≤ i + 1

theorem EndsErase.fail {e : Err} : EndsErase (M.fail e) := by intro σ w w' h; cases h

theorem EndsErase.erase : EndsErase (fErase .log) := by
  intro σ w w' h
  unfold fErase fileOp at h
  split at h
  · cases hl : w.fs .log with
    | none => simp only [hl] at h; cases h
    | some f =>
      simp only [hl] at h
      cases h
      refine ⟨w.clock, ⟨w.fs, w.clock + 1, w.out⟩, f, Nat.le_refl _, ?_, hl, rfl, Nat.le_refl _⟩
      unfold fErase fileOp
      rw [diesAt_ge (Nat.le_refl _)]
  · cases h
  · cases h

theorem EndsErase.bind {α : Type} {m : M α} {k : α → M Unit} (h : Timed False m) (hk : ∀ a, EndsErase (k a)) : EndsErase (m >>= k) := by
  intro σ w w' e
  rw [bind_run] at e
  cases em : m σ w with
  | mk r w1 =>
    rw [em] at e
    cases r with
    | error x => cases e
    | ok a =>
      obtain ⟨i, wA, f, h1, h2, h3, h4, h5⟩ := hk a σ w1 w' e
      have hm := h.mono σ w
      rw [em] at hm
      refine ⟨i, wA, f, Nat.le_trans hm h1, ?_, h3, h4, h5⟩
      rw [bind_run, h.ends' (by rw [em]; exact h1), em]
      exact h2

section
variable {c : Cfg}

theorem Timed.rekeyStep {kh : KeyHeader} {b0 b1 pre nwork : Nat} {buf : List Bytes} {dw : Writer} {r : Reader} :
    Timed False (rekeyStep c kh b0 b1 pre nwork buf dw r) := by
  unfold NuDB.rekeyStep; timed! [Timed.prepare, Timed.maybeSpill]

theorem Timed.rekeyScan {kh : KeyHeader} {b0 b1 pre nwork : Nat} : ∀ (fuel : Nat) (buf : List Bytes) (dw : Writer) (r : Reader),
    Timed False (rekeyScan c kh b0 b1 pre nwork fuel buf dw r) := by
  intro fuel
  induction fuel with
  | zero => intro buf dw r; exact Timed.raise _
  | succ n ih => intro buf dw r; unfold NuDB.rekeyScan; timed! [Timed.rekeyStep, ih _ _ _]

theorem Timed.rekeyChunks {kh : KeyHeader} {d chunk nwork : Nat} : ∀ (fuel b0 : Nat) (dw : Writer),
    Timed False (rekeyChunks c kh d chunk nwork fuel b0 dw) := by
  intro fuel
  induction fuel with
  | zero => intro b0 dw; exact Timed.raise _
  | succ n ih => intro b0 dw; unfold NuDB.rekeyChunks; timed! [Timed.rekeyScan _ _ _ _, ih _ _]

theorem Timed.rekeyPrepare {kh : KeyHeader} {d : Nat} : Timed False (rekeyPrepare c kh d) := by
  unfold NuDB.rekeyPrepare; timed_
theorem Timed.rekeyAlloc {kh : KeyHeader} : Timed False (rekeyAlloc kh) := by
  unfold NuDB.rekeyAlloc; timed_

theorem endsErase_rekey {a : RekeyArgs} : EndsErase (rekey c a) := by
  unfold rekey
  refine .bind .fOpen fun _ => .bind .readDatHeader fun _ => .bind (.check _) fun _ => .bind .fSize fun _ =>
    .bind (.attempt .fOpen) fun r => ?_
  split
  · exact .fail
  · exact .bind (.lift _) fun _ => .bind .rekeyPrepare fun _ => .bind .rekeyAlloc fun _ => .bind (.emit _) fun _ =>
      .bind (.rekeyChunks _ _ _) fun _ => .bind .writerFlush fun _ => .erase
  · exact .fail

theorem Timed.rekey {a : RekeyArgs} : Timed False (rekey c a) := by
  unfold NuDB.rekey
  refine .bind .fOpen fun _ => .bind .readDatHeader fun _ => .bind (.check _) fun _ => .bind .fSize fun _ =>
    .bind (.attempt .fOpen) fun r => ?_
  split
  · exact .fail _
  · exact .bind (.lift _) fun _ => .bind .rekeyPrepare fun _ => .bind .rekeyAlloc fun _ => .bind (.emit _) fun _ =>
      .bind (.rekeyChunks _ _ _) fun _ => .bind .writerFlush fun _ => .fErase (.inr id)
  · exact .fail _

theorem rekey_end {a : RekeyArgs} {σ : Schedule} {w w' : World} (h : rekey c a σ w = (.ok (), w')) :
    ∃ i wA f, rekey c a (diesAt σ i) w = (.error .crash, wA) ∧ wA.fs .log = some f ∧ w'.fs = wA.fs.set .log none ∧
      rekey c a (diesAt σ (i + 1)) w = rekey c a σ w := by
  obtain ⟨i, wA, f, _, h2, h3, h4, h5⟩ := endsErase_rekey σ w w' h
  exact ⟨i, wA, f, h2, h3, h4, Timed.rekey.ends' (by rw [h]; exact h5)⟩

end

end NuDB
