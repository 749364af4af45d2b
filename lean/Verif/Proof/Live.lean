import Verif.Spec.Live
import Verif.Proof.ConcInit
import Verif.Proof.ConcLive
/- Every thread and the flusher make finitely many steps of their own. -/
namespace NuDB

open Spec Conc

/-- Something that only decreases, and does so whenever `own` happens: it happens finitely
often. -/
theorem finitely {β : Type} {R : β → β → Prop} {P : Nat → β} {own : Nat → Prop} (i : Nat) (hacc : Acc R (P i))
    (h1 : ∀ j, i ≤ j → own j → R (P (j + 1)) (P j)) (h2 : ∀ j, i ≤ j → ¬ own j → P (j + 1) = P j) :
    ∃ N, i ≤ N ∧ ∀ j, N ≤ j → ¬ own j := by
  generalize hb : P i = b at hacc
  induction hacc generalizing i with
  | intro b _ ih =>
    by_cases hn : ∃ j, i ≤ j ∧ own j
    · obtain ⟨j, hj, ho⟩ := hn
      have first : ∀ d, ∀ j, j = i + d → own j → ∃ l, i ≤ l ∧ own l ∧ P l = P i := by
        intro d
        induction d using Nat.strongRecOn with
        | _ d ihd =>
          intro j hj ho
          by_cases hex : ∃ l, i ≤ l ∧ l < j ∧ own l
          · obtain ⟨l, a1, a2, a3⟩ := hex
            exact ihd (l - i) (by omega) l (by omega) a3
          · refine ⟨j, by omega, ho, ?_⟩
            have : ∀ l, i ≤ l → l ≤ j → P l = P i := by
              intro l
              induction l with
              | zero => intro h _; rw [show i = 0 by omega]
              | succ l ihl =>
                intro a1 a2
                by_cases h0 : i = l + 1
                · rw [h0]
                · rw [h2 l (by omega) fun o => hex ⟨l, by omega, by omega, o⟩]
                  exact ihl (by omega) (by omega)
            exact this j (by omega) (Nat.le_refl _)
      obtain ⟨l, l1, l2, l3⟩ := first (j - i) j (by omega) ho
      obtain ⟨N, n1, n2⟩ := ih (P (l + 1)) (by rw [← hb, ← l3]; exact h1 l l1 l2) (l + 1)
        (fun j h => h1 j (by omega)) (fun j h => h2 j (by omega)) rfl
      exact ⟨N, by omega, n2⟩
    · exact ⟨i, Nat.le_refl _, fun j hj ho => hn ⟨j, hj, ho⟩⟩

/-- Where a thread is after a step of its own. -/
def Moves (c : Cfg) (q p : Pc) : Prop :=
  ∃ x t f y es, x.pc t = p ∧ threadStep c x t f = some (y, es) ∧ y.pc t = q

/-- Where the flusher is after a step of its own. -/
def FMoves (c : Cfg) (q p : FPc) : Prop :=
  ∃ x f y, x.fl = p ∧ flusherStep c x f = some y ∧ y.fl = q

theorem goto_self {x : Sys} {t : Nat} {q : Pc} : (x.goto t q).pc t = q := by simp [Sys.goto]

/-- One file operation leads to a continuation or to an exception. -/
theorem after_cases {β : Type} (m : M β) (k : β → Prog α) (f : Fault) (fs : Fs) :
    (∃ b, (Prog.after m k f fs).1 = k b) ∨ ∃ e, (Prog.after m k f fs).1 = .raise e := by
  unfold Prog.after
  split
  · exact .inl ⟨_, rfl⟩
  · exact .inr ⟨_, rfl⟩

section
variable {c : Cfg}

theorem acc_out : Acc (Moves c) .out := by
  refine ⟨_, ?_⟩
  rintro q ⟨x, t, f, y, es, h1, h2, h3⟩
  simp [threadStep, h1] at h2

theorem acc_ret (r : CRet) : Acc (Moves c) (.ret r) := by
  refine ⟨_, ?_⟩
  rintro q ⟨x, t, f, y, es, h1, h2, rfl⟩
  simp only [threadStep, h1, Option.some.injEq, Prod.mk.injEq] at h2
  rw [← h2.1, goto_self]
  exact acc_out

/-- Programs of readers. -/
theorem acc_reader {β : Type} (K : Prog β → Pc)
    (hK : ∀ p q, Moves c q (K p) → Acc (Moves c) q ∨
      ∃ pa off n k f fs, p = .read pa off n k ∧ q = K (Prog.step f p fs).1) (p : Prog β) : Acc (Moves c) (K p) := by
  have hr : ∀ e, Acc (Moves c) (K (.raise e)) := by
    intro e
    refine ⟨_, fun q hq => ?_⟩
    rcases hK _ _ hq with h | ⟨_, _, _, _, _, _, h, _⟩
    · exact h
    · cases h
  induction p with
  | read pa off n k ih =>
    refine ⟨_, fun q hq => ?_⟩
    rcases hK _ _ hq with h | ⟨_, _, _, _, f, fs, h, rfl⟩
    · exact h
    · simp only [Prog.step]
      rcases after_cases (fRead pa off n) k f fs with ⟨b, hb⟩ | ⟨e, hb⟩
      · rw [hb]; exact ih b
      · rw [hb]; exact hr e
  | _ =>
    refine ⟨_, fun q hq => ?_⟩
    rcases hK _ _ hq with h | ⟨_, _, _, _, f, fs, h, rfl⟩
    · exact h
    · cases h

theorem readStep_inv {f : Fault} {fs : Fs} {p q : Prog α} (h : readStep f fs p = some q) :
    ∃ pa off n k, p = .read pa off n k ∧ q = (Prog.step f p fs).1 := by
  cases p with
  | read pa off n k => exact ⟨pa, off, n, k, rfl, (Option.some.inj h).symm⟩
  | _ => cases h

theorem acc_fetchC (k : Bytes) (n : Nat) (blob : Bytes) (p : Prog Bytes) : Acc (Moves c) (.fetchC k n blob p) := by
  refine acc_reader (fun p => .fetchC k n blob p) ?_ p
  rintro p q ⟨x, t, f, y, es, h1, h2, rfl⟩
  simp only [threadStep, h1] at h2
  split at h2
  · cases h2; rw [goto_self]; exact .inl (acc_ret _)
  · cases h2; rw [goto_self]; exact .inl (acc_ret _)
  · obtain ⟨z, hz, e⟩ := Option.map_eq_some_iff.mp h2
    obtain ⟨pa, off, n, k, e1, e2⟩ := readStep_inv hz
    cases e
    rw [goto_self]
    exact .inr ⟨pa, off, n, k, f, x.seen, e1, by rw [e2]⟩

theorem acc_fetchK (k : Bytes) (n g : Nat) (p : Prog Bytes) : Acc (Moves c) (.fetchK k n g p) := by
  refine acc_reader (fun p => .fetchK k n g p) ?_ p
  rintro p q ⟨x, t, f, y, es, h1, h2, rfl⟩
  simp only [threadStep, h1] at h2
  split at h2
  · cases h2; rw [goto_self]; exact .inl (acc_ret _)
  · cases h2; rw [goto_self]; exact .inl (acc_ret _)
  · obtain ⟨z, hz, e⟩ := Option.map_eq_some_iff.mp h2
    obtain ⟨pa, off, n, k, e1, e2⟩ := readStep_inv hz
    cases e
    rw [goto_self]
    exact .inr ⟨pa, off, n, k, f, x.seen, e1, by rw [e2]⟩

theorem acc_ins3 (k v : Bytes) : Acc (Moves c) (.ins3 k v) := by
  refine ⟨_, ?_⟩
  rintro q ⟨x, t, f, y, es, h1, h2, rfl⟩
  simp only [threadStep, h1] at h2
  split at h2
  · split at h2
    · cases h2
    · cases h2; rw [goto_self]; exact acc_ret _
  · cases h2

theorem acc_insS (k v : Bytes) (p : Prog Bool) : Acc (Moves c) (.insS k v p) := by
  refine acc_reader (fun p => .insS k v p) ?_ p
  rintro p q ⟨x, t, f, y, es, h1, h2, rfl⟩
  simp only [threadStep, h1] at h2
  split at h2
  · cases h2; rw [goto_self]; exact .inl (acc_ret _)
  · cases h2; rw [goto_self]; exact .inl (acc_ins3 _ _)
  · cases h2; rw [goto_self]; exact .inl (acc_ret _)
  · obtain ⟨z, hz, e⟩ := Option.map_eq_some_iff.mp h2
    obtain ⟨pa, off, n, k, e1, e2⟩ := readStep_inv hz
    cases e
    rw [goto_self]
    exact .inr ⟨pa, off, n, k, f, x.seen, e1, by rw [e2]⟩

theorem acc_insK (k v : Bytes) (n g : Nat) (p : Prog Bool) : Acc (Moves c) (.insK k v n g p) := by
  refine acc_reader (fun p => .insK k v n g p) ?_ p
  rintro p q ⟨x, t, f, y, es, h1, h2, rfl⟩
  simp only [threadStep, h1] at h2
  split at h2
  · cases h2; rw [goto_self]; exact .inl (acc_ret _)
  · cases h2; rw [goto_self]; exact .inl (acc_ins3 _ _)
  · cases h2; rw [goto_self]; exact .inl (acc_ret _)
  · obtain ⟨z, hz, e⟩ := Option.map_eq_some_iff.mp h2
    obtain ⟨pa, off, n, k, e1, e2⟩ := readStep_inv hz
    cases e
    rw [goto_self]
    exact .inr ⟨pa, off, n, k, f, x.seen, e1, by rw [e2]⟩

theorem acc_insC (k v : Bytes) (n : Nat) (blob : Bytes) (p rest : Prog Bool) : Acc (Moves c) (.insC k v n blob p rest) := by
  refine acc_reader (fun p => .insC k v n blob p rest) ?_ p
  rintro p q ⟨x, t, f, y, es, h1, h2, rfl⟩
  simp only [threadStep, h1] at h2
  split at h2
  · cases h2; rw [goto_self]; exact .inl (acc_ret _)
  · cases h2; rw [goto_self]; exact .inl (acc_insS _ _ _)
  · cases h2; rw [goto_self]; exact .inl (acc_ret _)
  · obtain ⟨z, hz, e⟩ := Option.map_eq_some_iff.mp h2
    obtain ⟨pa, off, n, k, e1, e2⟩ := readStep_inv hz
    cases e
    rw [goto_self]
    exact .inr ⟨pa, off, n, k, f, x.seen, e1, by rw [e2]⟩

theorem acc_fetch1 (k : Bytes) : Acc (Moves c) (.fetch1 k) := by
  refine ⟨_, ?_⟩
  rintro q ⟨x, t, f, y, es, h1, h2, rfl⟩
  simp only [threadStep, h1, fetchLocked] at h2
  obtain ⟨z, hz, e⟩ := Option.map_eq_some_iff.mp h2
  cases e
  split at hz
  · cases hz; rw [goto_self]; exact acc_ret _
  · split at hz
    · cases hz; rw [goto_self]; exact acc_ret _
    · split at hz
      · cases hz
      · split at hz
        · cases hz; rw [goto_self]; exact acc_fetchC _ _ _ _
        · cases hz; rw [goto_self]; exact acc_fetchK _ _ _ _

theorem acc_ins2 (k v : Bytes) : Acc (Moves c) (.ins2 k v) := by
  refine ⟨_, ?_⟩
  rintro q ⟨x, t, f, y, es, h1, h2, rfl⟩
  simp only [threadStep, h1, insertLocked] at h2
  obtain ⟨z, hz, e⟩ := Option.map_eq_some_iff.mp h2
  cases e
  split at hz
  · cases hz; rw [goto_self]; exact acc_ret _
  · split at hz
    · cases hz
    · split at hz
      · cases hz; rw [goto_self]; exact acc_insC _ _ _ _ _ _
      · cases hz; rw [goto_self]; exact acc_insK _ _ _ _ _

theorem acc_ins1 (k v : Bytes) : Acc (Moves c) (.ins1 k v) := by
  refine ⟨_, ?_⟩
  rintro q ⟨x, t, f, y, es, h1, h2, rfl⟩
  simp only [threadStep, h1] at h2
  split at h2
  · cases h2
  · cases h2; rw [goto_self]; exact acc_ins2 _ _

/-- Every sequence of steps of a thread in a call ends. -/
theorem acc_thread : ∀ p, Acc (Moves c) p
  | .out => acc_out
  | .ret r => acc_ret r
  | .fetch0 k => by
    refine ⟨_, ?_⟩
    rintro q ⟨x, t, f, y, es, h1, h2, rfl⟩
    simp only [threadStep, h1] at h2
    split at h2
    · cases h2; rw [goto_self]; exact acc_ret _
    · cases h2; rw [goto_self]; exact acc_fetch1 _
  | .fetch1 k => acc_fetch1 k
  | .fetchC k n blob p => acc_fetchC k n blob p
  | .fetchK k n g p => acc_fetchK k n g p
  | .ins0 k v => by
    refine ⟨_, ?_⟩
    rintro q ⟨x, t, f, y, es, h1, h2, rfl⟩
    simp only [threadStep, h1] at h2
    split at h2
    · cases h2; rw [goto_self]; exact acc_ret _
    · cases h2; rw [goto_self]; exact acc_ins1 _ _
  | .ins1 k v => acc_ins1 k v
  | .ins2 k v => acc_ins2 k v
  | .insC k v n blob p rest => acc_insC k v n blob p rest
  | .insS k v p => acc_insS k v p
  | .insK k v n g p => acc_insK k v n g p
  | .ins3 k v => acc_ins3 k v

theorem acc_idle : Acc (FMoves c) .idle := by
  refine ⟨_, ?_⟩
  rintro q ⟨x, f, y, h1, h2, h3⟩
  simp [flusherStep, h1] at h2

/-- One file operation of a program. -/
inductive After {α : Type} : Prog α → Prog α → Prop
  | size {p k} (n) : After (k n) (.size p k)
  | read {p off n k} (b) : After (k b) (.read p off n k)
  | write {p off b k} : After k (.write p off b k)
  | append {p off b k} : After k (.append p off b k)
  | sync {p k} : After k (.sync p k)
  | trunc {p n k} : After k (.trunc p n k)
  | raise {p e} (hp : ∀ e, p ≠ .raise e) : After (.raise e) p

theorem acc_after (p : Prog α) : Acc After p := by
  have hr : ∀ e, Acc (After (α := α)) (.raise e) := by
    intro e
    refine ⟨_, fun q hq => ?_⟩
    cases hq with
    | raise hp => exact absurd rfl (hp e)
  induction p with
  | ret a => exact ⟨_, fun q hq => by cases hq with | raise => exact hr _⟩
  | raise e => exact hr e
  | size p k ih => exact ⟨_, fun q hq => by cases hq with | size n => exact ih n | raise => exact hr _⟩
  | read p off n k ih => exact ⟨_, fun q hq => by cases hq with | read b => exact ih b | raise => exact hr _⟩
  | write p off b k ih => exact ⟨_, fun q hq => by cases hq with | write => exact ih | raise => exact hr _⟩
  | append p off b k ih => exact ⟨_, fun q hq => by cases hq with | append => exact ih | raise => exact hr _⟩
  | sync p k ih => exact ⟨_, fun q hq => by cases hq with | sync => exact ih | raise => exact hr _⟩
  | trunc p n k ih => exact ⟨_, fun q hq => by cases hq with | trunc => exact ih | raise => exact hr _⟩

theorem step_after {p : Prog α} (f : Fault) (fs : Fs) (h1 : ∀ a, p ≠ .ret a) (h2 : ∀ e, p ≠ .raise e) :
    After (p.step f fs).1 p := by
  cases p with
  | ret a => exact absurd rfl (h1 a)
  | raise e => exact absurd rfl (h2 e)
  | size pa k =>
    rcases after_cases (fSize pa) k f fs with ⟨b, hb⟩ | ⟨e, hb⟩
    · simp only [Prog.step, hb]; exact .size b
    · simp only [Prog.step, hb]; exact .raise (fun e h => by cases h)
  | read pa off n k =>
    rcases after_cases (fRead pa off n) k f fs with ⟨b, hb⟩ | ⟨e, hb⟩
    · simp only [Prog.step, hb]; exact .read b
    · simp only [Prog.step, hb]; exact .raise (fun e h => by cases h)
  | write pa off b k =>
    rcases after_cases (fWrite pa off b) (fun _ => k) f fs with ⟨b, hb⟩ | ⟨e, hb⟩
    · simp only [Prog.step, hb]; exact .write
    · simp only [Prog.step, hb]; exact .raise (fun e h => by cases h)
  | append pa off b k =>
    rcases after_cases (fAppend pa off b) (fun _ => k) f fs with ⟨b, hb⟩ | ⟨e, hb⟩
    · simp only [Prog.step, hb]; exact .append
    · simp only [Prog.step, hb]; exact .raise (fun e h => by cases h)
  | sync pa k =>
    rcases after_cases (fSync pa) (fun _ => k) f fs with ⟨b, hb⟩ | ⟨e, hb⟩
    · simp only [Prog.step, hb]; exact .sync
    · simp only [Prog.step, hb]; exact .raise (fun e h => by cases h)
  | trunc pa n k =>
    rcases after_cases (fTrunc pa n) (fun _ => k) f fs with ⟨b, hb⟩ | ⟨e, hb⟩
    · simp only [Prog.step, hb]; exact .trunc
    · simp only [Prog.step, hb]; exact .raise (fun e h => by cases h)

theorem acc_worker {β : Type} (K : Prog β → FPc)
    (hK : ∀ p q, FMoves c q (K p) → Acc (FMoves c) q ∨ ∃ r, After r p ∧ q = K r) (p : Prog β) :
    Acc (FMoves c) (K p) := by
  induction acc_after p with
  | intro p _ ih =>
    refine ⟨_, fun q hq => ?_⟩
    rcases hK _ _ hq with h | ⟨r, h, rfl⟩
    · exact h
    · exact ih r h

theorem acc_keys (p : Prog Unit) : Acc (FMoves c) (.keys p) := by
  refine acc_worker (fun p => .keys p) ?_ p
  rintro p q ⟨x, f, y, h1, h2, rfl⟩
  simp only [flusherStep, h1] at h2
  split at h2
  · split at h2
    · cases h2; exact .inl acc_idle
    · cases h2
  · cases h2; exact .inl acc_idle
  · cases h2
  · rename_i n1 n2 n3
    cases h2
    exact .inr ⟨_, step_after f x.fs n1 (fun e h => by cases e <;> first | exact n3 _ h | exact n2 _ h), rfl⟩

theorem acc_log (p : Prog Unit) : Acc (FMoves c) (.log p) := by
  refine acc_worker (fun p => .log p) ?_ p
  rintro p q ⟨x, f, y, h1, h2, rfl⟩
  simp only [flusherStep, h1] at h2
  split at h2
  · split at h2
    · cases h2; exact .inl (acc_keys _)
    · cases h2
  · cases h2; exact .inl acc_idle
  · cases h2
  · rename_i n1 n2 n3
    cases h2
    exact .inr ⟨_, step_after f x.fs n1 (fun e h => by cases e <;> first | exact n3 _ h | exact n2 _ h), rfl⟩

theorem acc_prep (p : Prog Work) : Acc (FMoves c) (.prep p) := by
  refine acc_worker (fun p => .prep p) ?_ p
  rintro p q ⟨x, f, y, h1, h2, rfl⟩
  simp only [flusherStep, h1] at h2
  split at h2
  · split at h2
    · cases h2; exact .inl (acc_log _)
    · cases h2
  · cases h2; exact .inl acc_idle
  · cases h2
  · rename_i n1 n2 n3
    cases h2
    exact .inr ⟨_, step_after f x.fs n1 (fun e h => by cases e <;> first | exact n3 _ h | exact n2 _ h), rfl⟩

/-- Every sequence of steps of a flush ends. -/
theorem acc_flusher : ∀ p, Acc (FMoves c) p
  | .idle => acc_idle
  | .prep p => acc_prep p
  | .log p => acc_log p
  | .keys p => acc_keys p

end

end NuDB
