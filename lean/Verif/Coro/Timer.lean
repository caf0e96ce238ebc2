import Mathlib.Tactic.Common
/-
Timers of coroutines: include/stc/coroutine.h:433-437 (`cco_time`), 447-479.

The clock is what `gettimeofday` says, so it may be set while a program runs.  Times are whole numbers of some unit;
the rounding of `double` is not modelled.
-/
namespace Verif.Coro.Timer

/-- include/stc/coroutine.h:447 `cco_timer`. -/
structure Timer where
  duration : Int
  start : Int
deriving DecidableEq, Repr

/-- include/stc/coroutine.h:449-452 `cco_make_timer_sec`; `now` is the clock. -/
def make (now sec : Int) : Timer := ⟨sec, now⟩

/-- include/stc/coroutine.h:454-457 `cco_start_timer_sec`. -/
def startT (now sec : Int) (_ : Timer) : Timer := ⟨sec, now⟩

/-- include/stc/coroutine.h:459-461 `cco_restart_timer`. -/
def restart (now : Int) (t : Timer) : Timer := ⟨t.duration, now⟩

/-- include/stc/coroutine.h:463-465 `cco_timer_expired`. -/
def expired (now : Int) (t : Timer) : Bool := decide (now - t.start ≥ t.duration)

/-- include/stc/coroutine.h:467-469 `cco_timer_elapsed_sec`. -/
def elapsed (now : Int) (t : Timer) : Int := now - t.start

/-- include/stc/coroutine.h:471-473 `cco_timer_remaining_sec`. -/
def remaining (now : Int) (t : Timer) : Int := t.start + t.duration - now

/-- The part of `cco_await(cco_timer_expired(tm))` that polls: the number of suspensions before going on, if it goes on
within these readings of the clock. include/stc/coroutine.h:478. -/
def poll (t : Timer) : List Int → Option Nat
  | [] => none
  | now :: later => if expired now t then some 0 else (poll t later).map (· + 1)

/-- include/stc/coroutine.h:475-479 `cco_await_timer_sec`: the timer is started by the first reading, once, and then asked
at once and at each resumption. -/
def awaitTimer (sec : Int) (t : Timer) : List Int → Option Nat
  | [] => none
  | now :: later => poll (startT now sec t) later

/-! Specification: moments of true time, and what the clock shows at each. -/

/-- The task goes on at moment `k` after the one at which it began to wait: that is the first moment at least `sec` later. -/
def Waits (sec : Int) (moments : List Int) (k : Nat) : Prop :=
  ∃ t0 later tk, moments = t0 :: later ∧ later[k]? = some tk ∧ sec ≤ tk - t0 ∧
    ∀ j < k, ∀ tj, later[j]? = some tj → tj - t0 < sec

theorem poll_some {t : Timer} {l : List Int} {k : Nat} :
    poll t l = some k ↔ (∃ x, l[k]? = some x ∧ t.duration ≤ x - t.start) ∧
      ∀ j < k, ∀ x, l[j]? = some x → x - t.start < t.duration := by
  induction l generalizing k with
  | nil => simp [poll]
  | cons a l ih =>
    unfold poll
    by_cases h : expired a t = true
    · rw [if_pos h]
      simp only [expired, decide_eq_true_eq] at h
      constructor
      · rintro e; cases e
        exact ⟨⟨a, rfl, h⟩, fun j hj => absurd hj (by omega)⟩
      · rintro ⟨_, h2⟩
        cases k with
        | zero => rfl
        | succ k => have := h2 0 (by omega) a rfl; omega
    · rw [if_neg h]
      simp only [expired, decide_eq_true_eq, ge_iff_le, Int.not_le] at h
      cases k with
      | zero =>
        constructor
        · intro e; cases hp : poll t l <;> simp [hp] at e
        · rintro ⟨⟨x, hx, hd⟩, _⟩
          simp at hx; omega
      | succ k =>
        have : (poll t l).map (· + 1) = some (k + 1) ↔ poll t l = some k := by
          cases poll t l <;> simp
        rw [this, ih]
        constructor
        · rintro ⟨⟨x, hx, hd⟩, h2⟩
          refine ⟨⟨x, by simpa using hx, hd⟩, fun j hj y hy => ?_⟩
          cases j with
          | zero => simp at hy; omega
          | succ j => exact h2 j (by omega) y (by simpa using hy)
        · rintro ⟨⟨x, hx, hd⟩, h2⟩
          exact ⟨⟨x, by simpa using hx, hd⟩, fun j hj y hy => h2 (j + 1) (by omega) y (by simpa using hy)⟩

/-- Expiry, elapsed and remaining time tell the same, at every reading of the clock. -/
theorem timer_consistent (now : Int) (t : Timer) :
    (expired now t = true ↔ remaining now t ≤ 0) ∧ (expired now t = true ↔ t.duration ≤ elapsed now t) ∧
    elapsed now t + remaining now t = t.duration := by
  simp only [expired, remaining, elapsed, decide_eq_true_eq]
  exact ⟨by omega, trivial, by omega⟩

/-- A timer just started has its whole time left, and its setting survives a restart. -/
theorem timer_started (now sec : Int) (t : Timer) :
    make now sec = startT now sec t ∧ remaining now (make now sec) = sec ∧ elapsed now (restart now t) = 0 ∧
    remaining now (restart now t) = t.duration := by
  simp only [make, startT, remaining, elapsed, restart]
  exact ⟨trivial, by omega, by omega, by omega⟩

/-- Partial (the clock must not be set meanwhile): a task waits for the first moment at which the time is up, neither
shorter nor longer, whatever the moments at which it is resumed.  `off` is by how much the clock is wrong. -/
theorem await_timer_partial (sec off : Int) (t : Timer) (moments : List Int) (k : Nat) :
    awaitTimer sec t (moments.map (· + off)) = some k ↔ Waits sec moments k := by
  cases moments with
  | nil => simp [awaitTimer, Waits]
  | cons t0 later =>
    simp only [List.map_cons, awaitTimer, startT]
    rw [poll_some]
    simp only [List.getElem?_map, Option.map_eq_some_iff]
    constructor
    · rintro ⟨⟨x, ⟨y, hy, rfl⟩, hd⟩, h2⟩
      refine ⟨t0, later, y, rfl, hy, by omega, fun j hj z hz => ?_⟩
      have := h2 j hj _ ⟨z, hz, rfl⟩
      omega
    · rintro ⟨_, _, y, e, hy, hd, h2⟩
      cases e
      refine ⟨⟨_, ⟨y, hy, rfl⟩, by omega⟩, ?_⟩
      rintro j hj x ⟨z, hz, rfl⟩
      have := h2 j hj z hz
      omega

/-- Refuted in general, as the clock is that of the calendar: when it is set back by `d` during the wait, the task goes
on waiting however often it is resumed, until `sec + d` have passed. -/
theorem await_set_back (sec d t0 : Int) (t : Timer) (later : List Int) (h : ∀ x ∈ later, x - t0 < sec + d) :
    awaitTimer sec t (t0 :: later.map (· - d)) = none := by
  simp only [awaitTimer, startT]
  induction later with
  | nil => rfl
  | cons a l ih =>
    have ha := h a (by simp)
    rw [List.map_cons, poll, if_neg (by simp only [expired, decide_eq_true_eq]; omega),
      ih (fun x hx => h x (by simp [hx]))]
    rfl

/-- Refuted in general: when it is set forward by at least `sec`, the task does not wait at all. -/
theorem await_set_forward (sec d t0 t1 : Int) (t : Timer) (later : List Int) (h0 : t0 ≤ t1) (h : sec ≤ d) :
    awaitTimer sec t (t0 :: (t1 + d) :: later) = some 0 := by
  simp only [awaitTimer, poll]
  rw [if_pos (by simp [expired, startT]; omega)]

/-- A waiting time that is not positive does not suspend the task. -/
theorem await_nothing (sec : Int) (hs : sec ≤ 0) (t : Timer) (t0 t1 : Int) (later : List Int) (h : t0 ≤ t1) :
    awaitTimer sec t (t0 :: t1 :: later) = some 0 := by
  simp only [awaitTimer, poll]
  rw [if_pos (by simp [expired, startT]; omega)]

/-! Concrete cases. -/

example : awaitTimer 5 ⟨0, 0⟩ ([100, 100, 103, 106, 109].map (· + 7)) = some 2 :=
  (await_timer_partial 5 7 ⟨0, 0⟩ _ 2).2
    ⟨100, _, 106, rfl, rfl, by decide, fun j hj => by
      match j, hj with
      | 0, _ => simp
      | 1, _ => simp⟩

example : awaitTimer 5 ⟨0, 0⟩ [100, 100 - 60, 130 - 60, 164 - 60] = none :=
  await_set_back 5 60 100 ⟨0, 0⟩ [100, 130, 164] (by decide)

example : awaitTimer 5 ⟨0, 0⟩ [100, 100 + 3600] = some 0 := await_set_forward 5 3600 100 100 _ [] (by decide) (by decide)

example : awaitTimer 0 ⟨9, 9⟩ [100, 100, 101] = some 0 := await_nothing 0 (by decide) _ 100 100 [101] (by decide)

example : expired 107 ⟨5, 102⟩ = true := (timer_consistent 107 ⟨5, 102⟩).1.2 (by decide)

example : remaining 3 (restart 3 ⟨5, 0⟩) = 5 := (timer_started 3 5 ⟨5, 0⟩).2.2.2

end Verif.Coro.Timer
