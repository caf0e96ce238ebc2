import Verif.Coro.Props
/- Coroutines whose cleanup suspends: yields or awaits behind `cco_finally` (coroutine.h 114-144). -/
namespace Verif.Coro
namespace Spec
variable {σ : Type}

/-- The code behind `cco_finally` may yield and await; its macros are on positive lines behind
`cco_finally`, and once it has suspended it does not use `cco_return` or `cco_yield_final`. -/
def SuspendingFinally (p : Prog σ) : Prop :=
  (∀ d, match (p.fin d).2 with
    | .yield m _ | .await m => 0 < m ∧ p.inFin m = true
    | .wait => False
    | .ret | .yieldFinal _ | .fall => True) ∧
  (∀ n d, match (p.finAt n d).2 with
    | .yield m _ | .await m => 0 < m ∧ p.inFin m = true
    | .ret | .yieldFinal _ => False
    | .wait | .fall => True)

/-- Suspended within the cleanup. -/
def Cleaning (p : Prog σ) (c : Co σ) : Prop := 0 ≤ c.state ∧ p.inFin c.state.toNat = true

instance (p : Prog σ) (c : Co σ) : Decidable (Cleaning p c) := inferInstanceAs (Decidable (_ ∧ _))

/-- Histories of one coroutine object: resumed at any time, stopped at any time until it cleans up. -/
inductive ReachS (p : Prog σ) (d : σ) : Co σ → Prop
  | init : ReachS p d (fresh d)
  | resume (c c' : Co σ) (f : Nat) (v : Int) : ReachS p d c → Coro.resume p f c = some (c', v) → ReachS p d c'
  | stop (c : Co σ) : ReachS p d c → c.state ≠ FINALLY → ¬ Cleaning p c → ReachS p d (stop c)

end Spec
open Spec
variable {σ : Type} {p : Prog σ} {d : σ}

/-- Running or stopped (no cleanup yet), cleaning up, or done. -/
inductive OkS (p : Prog σ) (c : Co σ) : Prop
  | run : 0 ≤ c.state → p.inFin c.state.toNat = false → c.entered = 0 → OkS p c
  | stopped : c.state = FINALLY → c.entered = 0 → OkS p c
  | clean : 0 ≤ c.state → p.inFin c.state.toNat = true → c.entered = 1 → OkS p c
  | done : c.state = DONE → c.entered = 1 → OkS p c

theorem go_okS (hw : WellFormed p) (hp : SuspendingFinally p) : ∀ (f : Nat) (c c' : Co σ) (v : Int), OkS p c →
    go p f c = some (c', v) → OkS p c' := by
  have hFD : FINALLY ≠ DONE := by decide
  have hsF : stopState FINALLY = DONE := by decide
  intro f
  induction f with
  | zero => intro c c' v _ h; simp [go] at h
  | succ f ih =>
    intro c c' v hc h
    obtain ⟨st, da, en⟩ := c
    rw [go] at h
    cases hc with
    | done h1 h2 =>
      simp only at h1 h2
      simp only [h1, if_true] at h
      cases h
      exact .done rfl h2
    | stopped h1 h2 =>
      simp only at h1 h2
      subst h1 h2
      simp only [if_neg hFD, if_true] at h
      have hx := hp.1 da
      cases hx' : (p.fin da).2 with
      | yield n v =>
        rw [hx'] at hx h; simp only [next] at h; cases h
        exact .clean (by simp) (by simpa using hx.2) rfl
      | await n =>
        rw [hx'] at hx h; simp only [next] at h
        exact ih _ _ _ (.clean (by simp) (by simpa using hx.2) rfl) h
      | wait => rw [hx'] at hx; exact hx.elim
      | ret =>
        rw [hx'] at h; simp only [next, hsF] at h
        exact ih _ _ _ (.done rfl rfl) h
      | yieldFinal v =>
        rw [hx'] at h; simp only [next, hsF] at h; cases h
        exact .done rfl rfl
      | fall =>
        rw [hx'] at h; simp only [next, if_true] at h; cases h
        exact .done rfl rfl
    | clean h1 h2 h3 =>
      simp only at h1 h2 h3
      have n1 : st ≠ DONE := by intro e; rw [e] at h1; exact absurd h1 (by decide)
      have n2 : st ≠ FINALLY := by intro e; rw [e] at h1; exact absurd h1 (by decide)
      simp only [if_neg n1, if_neg n2, if_pos h1, h2, if_true] at h
      have hx := hp.2 st.toNat da
      cases hx' : (p.finAt st.toNat da).2 with
      | yield n v =>
        rw [hx'] at hx h; simp only [next] at h; cases h
        exact .clean (by simp) (by simpa using hx.2) h3
      | await n =>
        rw [hx'] at hx h; simp only [next] at h
        exact ih _ _ _ (.clean (by simp) (by simpa using hx.2) h3) h
      | wait =>
        rw [hx'] at h; simp only [next] at h; cases h
        exact .clean h1 h2 h3
      | ret => rw [hx'] at hx; exact hx.elim
      | yieldFinal v => rw [hx'] at hx; exact hx.elim
      | fall =>
        rw [hx'] at h; simp only [next, if_true] at h; cases h
        exact .done rfl h3
    | run h1 h2 h3 =>
      simp only at h1 h2 h3
      have n1 : st ≠ DONE := by intro e; rw [e] at h1; exact absurd h1 (by decide)
      have n2 : st ≠ FINALLY := by intro e; rw [e] at h1; exact absurd h1 (by decide)
      simp only [if_neg n1, if_neg n2, if_pos h1, h2, Bool.false_eq_true, if_false] at h
      have hs : stopState st = FINALLY := if_pos h1
      have hx := hw st.toNat da
      cases hx' : (p.body st.toNat da).2 with
      | yield n v =>
        rw [hx'] at hx h; simp only [next] at h; cases h
        exact .run (by simp) (by simpa using hx.2) h3
      | await n =>
        rw [hx'] at hx h; simp only [next] at h
        exact ih _ _ _ (.run (by simp) (by simpa using hx.2) h3) h
      | wait =>
        rw [hx'] at h; simp only [next] at h; cases h
        exact .run h1 h2 h3
      | ret =>
        rw [hx'] at h; simp only [next, hs] at h
        exact ih _ _ _ (.stopped rfl h3) h
      | yieldFinal v =>
        rw [hx'] at h; simp only [next, hs] at h; cases h
        exact .stopped rfl h3
      | fall =>
        rw [hx'] at h; simp only [next, Bool.false_eq_true, if_false] at h
        exact ih _ _ _ (.stopped rfl h3) h

/-- C59, for a cleanup that suspends (partial: it is not stopped while it cleans up, and the cleanup does
not return early after it has suspended; both break the claim, see `coroutine_cleanup_restarts` and
`coroutine_cleanup_return_restarts`). The cleanup is entered once: not before the coroutine has been
stopped or has left its body, and never again, however often it suspends in between. -/
theorem coroutine_suspending_cleanup_partial (hw : WellFormed p) (hf : SuspendingFinally p) (h0 : p.inFin 0 = false)
    {c : Co σ} (h : ReachS p d c) :
    (c.state = DONE ∨ Cleaning p c → c.entered = 1) ∧ (c.state ≠ DONE → ¬ Cleaning p c → c.entered = 0) := by
  have : OkS p c := by
    induction h with
    | init => exact .run (by simp [fresh]) (by simpa [fresh] using h0) rfl
    | resume c c' f v _ h ih => exact go_okS hw hf f c c' v ih h
    | stop c _ h1 h2 ih =>
      cases ih with
      | run a b e => exact .stopped (if_pos a) e
      | stopped a e => exact absurd a h1
      | clean a b e => exact absurd ⟨a, b⟩ h2
      | done a e => exact .done (by simp only [stop, a]; decide) e
  constructor
  · rintro (e | e)
    · cases this with
      | run a b _ => rw [e] at a; exact absurd a (by decide)
      | stopped a _ => rw [e] at a; exact absurd a (by decide)
      | clean _ _ r => exact r
      | done _ r => exact r
    · cases this with
      | run a b _ => rw [e.2] at b; cases b
      | stopped a _ => have := e.1; rw [a] at this; exact absurd this (by decide)
      | clean _ _ r => exact r
      | done _ r => exact r
  · intro e1 e2
    cases this with
    | run _ _ r => exact r
    | stopped _ r => exact r
    | clean a b _ => exact absurd ⟨a, b⟩ e2
    | done a _ => exact absurd a e1

/-- A coroutine stopped in its body, whose cleanup waits twice and yields once. -/
def exProg3 : Prog Nat where
  body _ d := (d + 1, .yield 10 7)
  fin d := (d + 100, .await 20)
  finAt n d := if n = 20 then (if d < 300 then (d + 100, .wait) else (d, .yield 30 9)) else (d + 1000, .fall)
  inFin n := n == 20 || n == 30

example : WellFormed exProg3 ∧ SuspendingFinally exProg3 ∧
    ∃ c : Co Nat, ReachS exProg3 0 c ∧ c.state = DONE ∧ c.entered = 1 ∧ c.data = 1301 := by
  refine ⟨fun n d => by simp [exProg3], ⟨fun d => by simp [exProg3], fun n d => ?_⟩, ?_⟩
  · unfold exProg3; simp only
    by_cases h : n = 20
    · by_cases h' : d < 300 <;> simp [h, h']
    · simp [h]
  · refine ⟨_, .resume ⟨30, 301, 1⟩ ⟨DONE, 1301, 1⟩ 5 0 (.resume ⟨20, 301, 1⟩ _ 5 9 (.resume ⟨20, 201, 1⟩ _ 5 rAWAIT
      (.resume _ _ 5 rAWAIT (.stop ⟨10, 1, 0⟩ (.resume _ _ 5 7 .init rfl) (by decide) (by decide)) rfl) rfl) rfl) rfl,
      rfl, rfl, rfl⟩

/-- A coroutine that returns early from a cleanup that has suspended. -/
def exProg4 : Prog Nat where
  body _ d := (d, .fall)
  fin d := (d + 100, .yield 20 7)
  finAt _ d := (d + 1, .ret)
  inFin n := n == 20

/-- Disagreement with C59: `cco_return` in a cleanup that has suspended does not end the coroutine, it
starts the cleanup again, every time. -/
theorem coroutine_cleanup_return_restarts (k : Nat) :
    ∃ c : Co Nat, ReachS exProg4 0 c ∧ c.entered = k + 1 ∧ c.data = 101 * k + 100 ∧ c.state = 20 := by
  induction k with
  | zero => exact ⟨⟨20, 100, 1⟩, .resume _ _ 5 7 .init rfl, rfl, rfl, rfl⟩
  | succ k ih =>
    obtain ⟨⟨s, da, e⟩, h, h1, h2, h3⟩ := ih
    simp only at h1 h2 h3
    subst h1 h2 h3
    refine ⟨⟨20, 101 * k + 100 + 1 + 100, k + 1 + 1⟩, .resume _ _ 5 7 h ?_, rfl, by simp only; omega, rfl⟩
    rfl

end Verif.Coro
