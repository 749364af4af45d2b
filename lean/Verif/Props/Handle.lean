import Verif.Proof.HandleFuns
/-
C76: file descriptors. Whatever fails, the functions of the library use and close a descriptor only while it is open, close it
once, and close all that they opened; an open store has each of its three files open once.
-/
namespace NuDB.Handle
open Spec

/-- Every sequence of calls of the library, from a state in which no file is open; which operations fail, and what the files
contain, is arbitrary (`dec`). No assertion about files fails and no operation gets the descriptor -1; descriptors are used
properly; if the store is open, each file is open once. If it is not, no file is open, or each file is open once, the latter
only if a `close` failed. And if no `close` failed, no file is ever opened or erased while it is open.

What is missing: after a `close` that fails the files remain open (`C76_close_violated`). `rekey` is left out if `posix_fadvise`
can fail with the error number ENOENT (`C76_rekey_violated`). -/
theorem C76_partial (stale : Bool) (dec : Nat → Nat) (cs : List Call) (hs : stale = true → Call.rekey ∉ cs) :
    ∃ r w, calls stale cs (W.init dec) = .ok r w ∧
      (∃ L, Sound false w.trace L ∧ (w.isOpen = true → OneEach L) ∧ (w.isOpen = false → (∀ d, L d = none) ∨ OneEach L)) ∧
      ((Call.close, false) ∉ r →
        ∃ L, Sound true w.trace L ∧ (w.isOpen = true → OneEach L) ∧ (w.isOpen = false → ∀ d, L d = none)) := by
  obtain ⟨r, w, hc, m, ob, h, h1, -⟩ := calls_ok hs (Idle.init (dec := dec))
  refine ⟨r, w, hc, ?_, fun hr => ?_⟩
  · obtain ⟨L, hL, hm, hn⟩ := h.opened
    refine ⟨L, hL, fun ho => hm (h1 (h.op.symm.trans ho)), fun _ => ?_⟩
    cases m with
    | false => exact .inl (hn rfl)
    | true => exact .inr (hm rfl)
  · obtain ⟨m, ob, h, h1, h2⟩ := calls_excl hs Idle.init hc hr
    obtain ⟨L, hL, hm, hn⟩ := h.opened
    exact ⟨L, hL, fun ho => hm (h1 (h.op.symm.trans ho)), fun ho => hn (h2 rfl (h.op.symm.trans ho))⟩

/-- The destructor of the store closes everything, also after a `close` that failed. -/
theorem C76_destroy (stale : Bool) (dec : Nat → Nat) (cs : List Call) (hs : stale = true → Call.rekey ∉ cs) :
    ∃ r w, calls stale (cs ++ [.destroy]) (W.init dec) = .ok r w ∧ w.isOpen = false ∧
      ∃ L, Sound false w.trace L ∧ ∀ d, L d = none := by
  have app : ∀ (cs : List Call) (w : W) r w1 b w2, calls stale cs w = .ok r w1 → call stale .destroy w1 = .ok b w2 →
      calls stale (cs ++ [.destroy]) w = .ok (r ++ [(.destroy, b)]) w2 := by
    intro cs
    induction cs with
    | nil =>
      intro w r w1 b w2 h hd
      cases h
      show calls stale [.destroy] w = _
      rw [calls, bind_ok hd]; rfl
    | cons c cs ih =>
      intro w r w1 b w2 h hd
      obtain ⟨b', w', r', e1, e2, rfl⟩ := calls_cons h
      show calls stale (c :: (cs ++ [.destroy])) w = _
      rw [calls, bind_ok e1, bind_ok (ih w' r' w1 b w2 e2 hd)]; rfl
  obtain ⟨r, w, hc, hi⟩ := calls_ok hs (Idle.init (dec := dec))
  have := call_ok (stale := stale) (c := .destroy) (Q := fun _ w' => Holds false (memS false) false w') (R := fun _ _ => False)
    (fun _ => by simp) hi (fun _ w' _ h => h rfl)
  unfold wp at this
  cases e : call stale .destroy w with
  | ok b w' =>
    rw [e] at this
    obtain ⟨L, hL, -, hn⟩ := this.opened
    exact ⟨_, w', app cs _ r w b w' hc e, this.op, L, hL, hn rfl⟩
  | ret b w => rw [e] at this; exact this.elim
  | ub => rw [e] at this; exact this.elim

/-- The functions other than those of the store close all that they opened, whether they succeed or not. -/
theorem C76_functions (stale : Bool) (dec : Nat → Nat) (c : Call) (hc : c ∉ [Call.open, .use, .close, .destroy])
    (hs : stale = true → c ≠ .rekey) :
    ∃ b w, call stale c (W.init dec) = .ok b w ∧ ∃ L, Sound true w.trace L ∧ ∀ d, L d = none := by
  have h : Holds true (memS false) false (W.init dec) := by
    obtain ⟨m, ob, h, -, h2⟩ := Idle.init (excl := true) (dec := dec)
    have ho : ob = false := h.op.symm
    cases ho
    cases h2 rfl rfl
    exact h
  have fin : ∀ m : HM Bool, call stale c (W.init dec) = m (W.init dec) →
      wp m (fun _ w => Holds true (memS false) false w) (fun _ _ => False) (W.init dec) →
      ∃ b w, call stale c (W.init dec) = .ok b w ∧ ∃ L, Sound true w.trace L ∧ ∀ d, L d = none := by
    intro m e hm
    rw [e]
    unfold wp at hm
    cases e : m (W.init dec) with
    | ok b w =>
      rw [e] at hm
      obtain ⟨L, hL, -, hn⟩ := hm.opened
      exact ⟨b, w, rfl, L, hL, hn rfl⟩
    | ret b w => rw [e] at hm; exact hm.elim
    | ub => rw [e] at hm; exact hm.elim
  have hx : true = true → ∀ u, memS false u = false := memS_free fun _ => rfl
  have hl : ∀ p, memS false (lvar p) = false := memS_other (by simp)
  cases c with
  | create => exact fin (create stale) rfl (create_ok hx hl h fun _ _ h => h)
  | recover => exact fin (recover stale .local) rfl (recover_ok hx hl h fun _ _ h => h)
  | rekey =>
    cases stale with
    | true => exact absurd rfl (hs rfl)
    | false => exact fin (rekey false) rfl (rekey_ok hx hl h fun _ _ h => h)
  | visit => exact fin (visit stale) rfl (visit_ok hx hl h fun _ _ h => h)
  | verify => exact fin (verify stale) rfl (verify_ok hx hl h fun _ _ h => h)
  | «open» => simp at hc
  | use => simp at hc
  | close => simp at hc
  | destroy => simp at hc

/-- Decisions: `create` and `open` succeed, `close` writes once and this fails, all later operations succeed (the next `open`
rolls back). -/
def decClose : Nat → Nat := fun t => if t = 10 ∨ t = 17 ∨ t = 19 ∨ t = 32 then 1 else 0

theorem result_of {o : Out (List (Call × Bool))} {r : List (Call × Bool)}
    (h : (match o with | .ok r' _ => decide (r' = r) | _ => false) = true) : ∃ w, o = .ok r w := by
  cases o with
  | ok r' w => simp at h; exact ⟨w, by rw [h]⟩
  | ret b w => cases h
  | ub => cases h

/-- basic_store.hpp 293: "If an error occurs, the database is still closed." But then the three files are still open. -/
theorem C76_close_violated :
    ∃ w, calls false [.create, .open, .close] (W.init decClose) = .ok [(.create, true), (.open, true), (.close, false)] w ∧
      w.isOpen = false ∧ ∃ L, Sound false w.trace L ∧ OneEach L := by
  obtain ⟨r, w, hc, m, ob, h, h1, -⟩ := calls_ok (stale := false) (cs := [.create, .open, .close]) (by simp)
    (Idle.init (dec := decClose))
  have key : ∀ o : Out (List (Call × Bool)), o = .ok r w →
      (match o with
        | .ok r w => decide (r = [(.create, true), (.open, true), (.close, false)]) && !w.isOpen && (w.fd (mvar .dat)).isSome
        | _ => false) = true →
      r = [(.create, true), (.open, true), (.close, false)] ∧ w.isOpen = false ∧ (w.fd (mvar .dat)).isSome = true := by
    intro o e ho
    subst e
    simp at ho
    exact ⟨ho.1.1, ho.1.2, ho.2⟩
  obtain ⟨rfl, ho, hd⟩ := key _ hc (by decide +kernel)
  refine ⟨w, hc, ho, ?_⟩
  rw [h.is] at hd
  have hm : m = true := by simpa [memS, mvar] using hd
  obtain ⟨L, hL, hm', -⟩ := h.opened
  exact ⟨L, hL, hm' hm⟩

/-- Opening such a store again opens files that are open; on Windows, where they are opened without sharing (win32_file.ipp
62-68, 80-86), this fails until the store is destroyed. -/
theorem C76_reopen_violated :
    ∃ r w, calls false [.create, .open, .close, .open] (W.init decClose) = .ok r w ∧ ¬ ∃ L, Sound true w.trace L := by
  obtain ⟨r, w, hc, -⟩ := calls_ok (stale := false) (cs := [.create, .open, .close, .open]) (by simp) (Idle.init (dec := decClose))
  refine ⟨r, w, hc, ?_⟩
  have key : ∀ o : Out (List (Call × Bool)), o = .ok r w →
      (match o with
        | .ok _ w => decide (w.trace = w.trace.take 11 ++ .open 5 .dat :: [.open 6 .key, .open 7 .log, .use 5] ++
            .open 8 .dat :: w.trace.drop 16)
        | _ => false) = true →
      w.trace = w.trace.take 11 ++ .open 5 .dat :: [.open 6 .key, .open 7 .log, .use 5] ++ .open 8 .dat :: w.trace.drop 16 := by
    intro o e ho
    subst e
    simpa using ho
  rintro ⟨L, hL⟩
  rw [key _ hc (by decide +kernel)] at hL
  exact hL.twice (by simp)

/-- If `posix_fadvise` fails with the error number ENOENT, `rekey` takes the file to be missing and uses the object, which is
open, for another `create`: an assertion fails (rekey.ipp 68-75, 110; posix_file.ipp 62, 83). -/
theorem C76_rekey_violated : ∃ dec, calls true [.rekey] (W.init dec) = .ub :=
  ⟨fun t => if t = 3 then 3 else 0, by
    have key : ∀ o : Out (List (Call × Bool)), (match o with | .ub => true | _ => false) = true → o = .ub := by
      intro o h
      cases o with
      | ub => rfl
      | ok r w => cases h
      | ret b w => cases h
    exact key _ (by decide +kernel)⟩

/-- A successful life of a database, and one in which `open` fails after the third file was opened. -/
example : ∃ w, calls false [.create, .open, .use, .close, .verify, .destroy] (W.init fun t => if t = 10 then 1 else 0) =
    .ok [(.create, true), (.open, true), (.use, true), (.close, true), (.verify, true), (.destroy, true)] w :=
  result_of (by decide +kernel)

example : ∃ w, calls false [.create, .open, .visit] (W.init fun t => if t = 10 ∨ t = 16 then 1 else 0) =
    .ok [(.create, true), (.open, false), (.visit, true)] w :=
  result_of (by decide +kernel)

/-- A use after `close` is not sound, nor is a second `close`. -/
example : ¬ ∃ L, Sound false [.open 0 .dat, .close 0, .use 0] L := by
  rintro ⟨L, hL⟩
  exact hL.last_use (tr := [.open 0 .dat, .close 0]) (fun L' h => h.last_close (tr := [.open 0 .dat]))

example : ¬ ∃ L, Sound false [.open 0 .dat, .close 0, .close 0] L := by
  rintro ⟨L, hL⟩
  exact hL.last_close2 (tr := [.open 0 .dat, .close 0]) (fun L' h => h.last_close (tr := [.open 0 .dat]))

end NuDB.Handle
