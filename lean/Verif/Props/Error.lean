import Verif.Model.Error
/-
C68: error codes.
-/
namespace NuDB

/-- C68, numbers: different errors have different numbers, none is 0, which means success. -/
theorem C68_numbers {e e' : Err} {n : Nat} (h : e.value = some n) (h' : e'.value = some n) :
    e = e' ∧ (makeErrorCode n).isError = true := by
  have hn : 1 ≤ n ∧ n ≤ 39 := by
    cases e <;> simp only [Err.value, Option.some.injEq, reduceCtorEq] at h <;> omega
  have hi : ∀ (e : Err), e.value = some n → e = ([.key_not_found, .key_exists, .short_read, .log_file_exists, .no_key_file,
      .too_many_buckets, .not_data_file, .not_key_file, .not_log_file, .different_version, .invalid_key_size,
      .invalid_block_size, .short_key_file, .short_bucket, .short_spill, .short_data_record, .short_value, .hash_mismatch,
      .invalid_load_factor, .invalid_capacity, .invalid_bucket_count, .invalid_bucket_size, .incomplete_data_file_header,
      .incomplete_key_file_header, .invalid_log_record, .invalid_log_spill, .invalid_log_offset, .invalid_log_index,
      .invalid_spill_size, .uid_mismatch, .appnum_mismatch, .key_size_mismatch, .salt_mismatch, .pepper_mismatch,
      .block_size_mismatch, .orphaned_value, .missing_value, .size_mismatch, .duplicate_value] : List Err).getD (n - 1) .io := by
    intro e h
    cases e <;> simp only [Err.value, Option.some.injEq, reduceCtorEq] at h <;> subst h <;> rfl
  refine ⟨(hi e h).trans (hi e' h').symm, ?_⟩
  simp only [makeErrorCode, ErrorCode.isError, bne_iff_ne, ne_eq]
  omega

/-- C68, messages: different errors have different messages, and none is empty. -/
theorem C68_messages_partial {e e' : Err} {n n' : Nat} (h : e.value = some n) (h' : e'.value = some n') :
    message n ≠ "" ∧ (message n = message n' → e = e') := by
  have hn : ∀ {e : Err} {n : Nat}, e.value = some n → 1 ≤ n ∧ n < 40 := by
    intro e n h
    cases e <;> simp only [Err.value, Option.some.injEq, reduceCtorEq] at h <;> omega
  have key : ∀ i : Nat, i < 40 → message i ≠ "" ∧ ∀ j : Nat, j < 40 → 1 ≤ i → 1 ≤ j → message i = message j → i = j := by
    decide +kernel
  refine ⟨(key n (hn h).2).1, fun hm => ?_⟩
  have := (key n (hn h).2).2 n' (hn h').2 (hn h).1 (hn h').1 hm
  subst this
  exact (C68_numbers h h').1

/-- The message of success is that of an error. -/
theorem C68_success_violated : ∃ n, Err.value .key_not_found = some n ∧ message 0 = message n := ⟨1, rfl, rfl⟩

/-- C68, comparison: a code equals a condition of NuDB exactly if it is a code of NuDB with the same number, provided
that no other category claims to know the numbers of NuDB. -/
theorem C68_equal {o : Others} (h : ∀ n v ec, ec.cat = .nudb → o.code n v ec = false) (c : ErrorCode) (v : Int) :
    c.matches o ⟨v, .nudb⟩ = true ↔ c = ⟨v, .nudb⟩ := by
  obtain ⟨cv, cat⟩ := c
  cases cat with
  | nudb =>
    simp only [ErrorCode.matches, equivalentCode, equivalentCondition, beq_self_eq_true, Bool.and_true, Bool.or_eq_true,
      beq_iff_eq, ErrorCode.mk.injEq, and_true]
    constructor
    · rintro (rfl | rfl) <;> rfl
    · exact .inr
  | other n =>
    simp [ErrorCode.matches, equivalentCode, equivalentCondition, h]

/-- C68, comparison with foreign conditions: a code of NuDB equals no condition of another category, provided that no other
category claims to know the codes of NuDB. -/
theorem C68_foreign {o : Others} (h : ∀ n ec v, ec.cat = .nudb → o.condition n ec v = false) (ev v : Int) (n : Nat) :
    (ErrorCode.mk ev .nudb).matches o ⟨v, .other n⟩ = false := by
  simp [ErrorCode.matches, equivalentCode, equivalentCondition, h]

/-- C68, default conditions: a code equals its own condition. -/
theorem C68_default (o : Others) (n : Nat) : (makeErrorCode n).matches o (defaultCondition n) = true := by
  simp [ErrorCode.matches, equivalentCode, makeErrorCode, defaultCondition]

/-! ### The premises are satisfiable -/

example : Err.value .key_exists = some 2 ∧ Err.value .invalid_bucket_size = some 22 := ⟨rfl, rfl⟩

/-- As with the categories of Boost, which map their codes to conditions of their own. -/
example : ∃ o : Others, (∀ n v ec, ec.cat = .nudb → o.code n v ec = false) ∧
    (∀ n ec v, ec.cat = .nudb → o.condition n ec v = false) ∧ (ErrorCode.mk 2 (.other 0)).matches o ⟨2, .other 0⟩ = true :=
  ⟨⟨fun n v ec => ec.value == v && ec.cat == .other n, fun n c v => c.value == v && c.cat == .other n⟩,
    fun n v ec h => by simp [h], fun n ec v h => by simp [h], by decide⟩

end NuDB
