import Verif.Coro.Spec
import Mathlib.Tactic.Common
/- Properties of coroutines. -/
namespace Verif.Coro
open Spec
variable {σ : Type} {p : Prog σ} {d : σ}

/-- Running, stopped, or done: cleanup was executed exactly if the coroutine is done. -/
structure Ok (p : Prog σ) (c : Co σ) : Prop where
  live : c.state ≠ DONE → c.entered = 0
  done : c.state = DONE → c.entered = 1
  line : c.state = DONE ∨ c.state = FINALLY ∨ (0 ≤ c.state ∧ p.inFin c.state.toNat = false)

theorem go_ok (hw : WellFormed p) (hp : PlainFinally p) : ∀ (f : Nat) (c c' : Co σ) (v : Int), Ok p c → go p f c = some (c', v) → Ok p c' := by
  intro f
  induction f with
  | zero => intro c c' v _ h; simp [go] at h
  | succ f ih =>
    intro c c' v hc h
    obtain ⟨st, da, en⟩ := c
    rw [go] at h
    by_cases h1 : st = DONE
    · simp only [h1, if_true] at h
      cases h
      exact h1 ▸ hc
    by_cases h2 : st = FINALLY
    · subst h2
      have hen : en = 0 := hc.live h1
      simp only [h1, if_false, if_true] at h
      have hx := hp da
      cases hx' : (p.fin da).2 with
      | yield n v => rw [hx'] at hx; exact hx.elim
      | await n => rw [hx'] at hx; exact hx.elim
      | wait => rw [hx'] at hx; exact hx.elim
      | ret =>
        rw [hx'] at h
        simp only [next] at h
        cases f with
        | zero => simp [go] at h
        | succ f =>
          have : stopState FINALLY = DONE := by decide
          rw [go] at h
          simp only [this, if_true] at h
          cases h
          exact ⟨fun h => absurd rfl h, fun _ => by simp [hen], .inl rfl⟩
      | yieldFinal v =>
        rw [hx'] at h
        simp only [next] at h
        cases h
        have : stopState FINALLY = DONE := by decide
        exact ⟨fun h => absurd this h, fun _ => by simp [hen], .inl this⟩
      | fall =>
        rw [hx'] at h
        simp only [next, if_true] at h
        cases h
        exact ⟨fun h => absurd rfl h, fun _ => by simp [hen], .inl rfl⟩
    have h3 : 0 ≤ st ∧ p.inFin st.toNat = false := by
      rcases hc.line with e | e | e
      · exact absurd e h1
      · exact absurd e h2
      · exact e
    have hen : en = 0 := hc.live h1
    simp only [if_neg h1, if_neg h2, if_pos h3.1, h3.2, Bool.false_eq_true, if_false] at h
    have hx := hw st.toNat da
    cases hx' : (p.body st.toNat da).2 with
    | yield n v =>
      rw [hx'] at h hx
      simp only [next] at h
      cases h
      refine ⟨fun _ => hen, fun e => ?_, .inr (.inr ⟨by simp, by simpa using hx.2⟩)⟩
      have e : (n : Int) = -2 := e
      omega
    | await n =>
      rw [hx'] at h hx
      simp only [next] at h
      refine ih _ _ _ ⟨fun _ => hen, fun e => ?_, .inr (.inr ⟨by simp, by simpa using hx.2⟩)⟩ h
      have e : (n : Int) = -2 := e
      omega
    | wait =>
      rw [hx'] at h
      simp only [next] at h
      cases h
      exact ⟨fun _ => hen, fun e => absurd e h1, .inr (.inr h3)⟩
    | ret =>
      rw [hx'] at h
      simp only [next] at h
      have e : stopState st = FINALLY := if_pos h3.1
      rw [e] at h
      exact ih _ _ _ ⟨fun _ => hen, fun e => (by cases e), .inr (.inl rfl)⟩ h
    | yieldFinal v =>
      rw [hx'] at h
      simp only [next] at h
      have e : stopState st = FINALLY := if_pos h3.1
      rw [e] at h
      cases h
      exact ⟨fun _ => hen, fun e => (by cases e), .inr (.inl rfl)⟩
    | fall =>
      rw [hx'] at h
      simp only [next, Bool.false_eq_true, if_false] at h
      exact ih _ _ _ ⟨fun _ => hen, fun e => (by cases e), .inr (.inl rfl)⟩ h

/-- C59 (part): in every history of resuming and stopping, the code behind `cco_finally` has been
executed exactly once when the coroutine is done, and not before. Missing: stopping a coroutine that
is already stopped, and suspending behind `cco_finally`; both break the claim (below). -/
theorem coroutine_cleanup_once_partial (hw : WellFormed p) (hf : PlainFinally p) (h0 : p.inFin 0 = false) {c : Co σ} (h : Reach p d c) :
    (c.state = DONE → c.entered = 1) ∧ (c.state ≠ DONE → c.entered = 0) := by
  have : Ok p c := by
    induction h with
    | init => exact ⟨fun _ => rfl, fun e => (by cases e), .inr (.inr ⟨by simp [fresh], by simpa [fresh] using h0⟩)⟩
    | resume c c' f v _ h ih => exact go_ok hw hf f c c' v ih h
    | stop c _ hn ih =>
      rcases ih.line with e | e | e
      · have e' : stopState c.state = DONE := by rw [e]; decide
        exact ⟨fun h => absurd e' h, fun _ => ih.done e, .inl e'⟩
      · exact absurd e hn
      · have e' : stopState c.state = FINALLY := if_pos e.1
        refine ⟨fun _ => ih.live ?_, fun h => ?_, .inr (.inl e')⟩
        · intro h; rw [h] at e; exact absurd e.1 (by decide)
        · have h : stopState c.state = DONE := h
          rw [e'] at h; cases h
  exact ⟨this.done, this.live⟩

/-- Stopping a started or unstarted coroutine and resuming it once executes the cleanup and finishes
it, without running any code of the body. -/
theorem coroutine_stop_cleans_up (hf : PlainFinally p) {c : Co σ} (hs : 0 ≤ c.state) (f : Nat) :
    ∃ c' v, resume p (f + 2) (stop c) = some (c', v) ∧ c'.state = DONE ∧ c'.entered = c.entered + 1 ∧ c'.data = (p.fin c.data).1 := by
  have e : stopState c.state = FINALLY := if_pos hs
  have h1 : FINALLY ≠ DONE := by decide
  have h2 : stopState FINALLY = DONE := by decide
  unfold resume stop
  rw [go]
  simp only [e, if_neg h1, if_true]
  have hx := hf c.data
  cases hx' : (p.fin c.data).2 with
  | yield n v => rw [hx'] at hx; exact hx.elim
  | await n => rw [hx'] at hx; exact hx.elim
  | wait => rw [hx'] at hx; exact hx.elim
  | ret =>
    simp only [next, h2]
    rw [go]
    simp only [if_true]
    exact ⟨_, _, rfl, rfl, rfl, rfl⟩
  | yieldFinal v => simp only [next, h2]; exact ⟨_, _, rfl, rfl, rfl, rfl⟩
  | fall => simp only [next, if_true]; exact ⟨_, _, rfl, rfl, rfl, rfl⟩

/-- Resuming a finished coroutine does nothing and reports that it is done, however often. -/
theorem coroutine_done_inert {c : Co σ} (h : c.state = DONE) (f : Nat) : resume p (f + 1) c = some (c, rDONE) ∧ (stop c).state = DONE := by
  refine ⟨by unfold resume; rw [go, if_pos h], ?_⟩
  simp only [stop, h]
  decide

/-- A coroutine that yields in its body is suspended at that line, with no cleanup executed. -/
theorem coroutine_value_body {c c' : Co σ} {f : Nat} (hn : 0 ≤ c.state) (hb : p.inFin c.state.toNat = false) {n : Nat} {v : Int}
    (he : (p.body c.state.toNat c.data).2 = .yield n v) (h : resume p (f + 1) c = some (c', v)) : c'.state = n ∧ c'.entered = c.entered ∧ c'.data = (p.body c.state.toNat c.data).1 := by
  have h1 : c.state ≠ DONE := by intro e; rw [e] at hn; exact absurd hn (by decide)
  have h2 : c.state ≠ FINALLY := by intro e; rw [e] at hn; exact absurd hn (by decide)
  unfold resume at h
  rw [go, if_neg h1, if_neg h2, if_pos hn] at h
  simp only [hb, Bool.false_eq_true, if_false, he, next] at h
  cases h
  exact ⟨rfl, rfl, rfl⟩

/-! ### what breaks it -/

/-- A coroutine that yields once and cleans up. -/
def exProg : Prog Nat where
  body n d := if n = 0 then (d + 1, .yield 10 7) else (d + 1, .fall)
  fin d := (d + 100, .fall)
  finAt _ d := (d, .fall)
  inFin _ := false

theorem exProg_ok : WellFormed exProg ∧ PlainFinally exProg := by
  refine ⟨fun n d => ?_, fun d => trivial⟩
  unfold exProg
  by_cases h : n = 0 <;> simp [h]

/-- Disagreement with C59: stopping twice before the next resume skips the cleanup altogether. -/
theorem coroutine_stop_twice_skips_cleanup : ∃ c : Co Nat, ReachAny exProg 0 c ∧ c.state = DONE ∧ c.entered = 0 :=
  ⟨_, .stop _ (.stop _ (.resume _ ⟨10, 1, 0⟩ 3 7 .init rfl)), rfl, rfl⟩

/-- A coroutine that waits for something in its cleanup. -/
def exProg2 : Prog Nat where
  body _ d := (d, .fall)
  fin d := (d + 100, .yield 20 7)
  finAt _ d := (d, .fall)
  inFin n := n == 20

/-- Disagreement with C59: stopping a coroutine that is suspended in its cleanup restarts the cleanup. -/
theorem coroutine_cleanup_restarts : ∃ c : Co Nat, Reach exProg2 0 c ∧ c.entered = 2 :=
  ⟨_, .resume _ ⟨20, 200, 2⟩ 3 7 (.stop _ (.resume _ ⟨20, 100, 1⟩ 3 7 .init rfl) (by decide)) rfl, rfl⟩

/-! ### examples -/

example : ∃ c : Co Nat, Reach exProg 0 c ∧ c.state = DONE ∧ c.entered = 1 ∧ c.data = 102 :=
  ⟨_, .resume _ ⟨DONE, 102, 1⟩ 3 0 (.resume _ ⟨10, 1, 0⟩ 3 7 .init rfl) rfl, rfl, rfl, rfl⟩

example : ∃ c : Co Nat, Reach exProg 0 c ∧ c.state = DONE ∧ c.entered = 1 ∧ c.data = 101 :=
  ⟨_, .resume _ ⟨DONE, 101, 1⟩ 3 0 (.stop _ (.resume _ ⟨10, 1, 0⟩ 3 7 .init rfl) (by decide)) rfl, rfl, rfl, rfl⟩

end Verif.Coro
