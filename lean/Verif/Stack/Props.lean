import Verif.Stack.Lemmas
/- C04 (fixed-capacity stack) and the list behaviour of both stack variants. -/
namespace Verif.Stack
open Spec
variable {α : Type}

/-- C04. A stack declared with a fixed capacity `N` (C arrays have `N ≥ 1`), after any history
of valid calls: it never holds more than `N` elements and its storage is still the `N` inline
slots; reads and `top` agree with the list; every further valid call is defined (writes
nothing outside the `N` slots); and `push` returns NULL exactly when `N` elements are held,
changing nothing then, and otherwise appends. -/
theorem fixed_stack {N : Nat} (hN : N ≠ 0) {s : Stack α} {l : List α}
    (h : Reach (some N) s l) :
    l.length ≤ N ∧ s.size = l.length ∧ (∃ b, s.data = some b ∧ b.length = N) ∧
    (∀ i, at' s i = l[i]?) ∧ top s = l.getLast? ∧
    (∀ o, valid l o → ∃ s' r x, step (some N) s o = some (s', r, x) ∧ x = out l o ∧
      s'.dropped = s.dropped ++ destroyed l o ∧ (r = false → s' = s)) ∧
    (∀ ok x, (l.length = N → push (some N) ok s x = some (s, false)) ∧
      (l.length < N → ∃ s', push (some N) ok s x = some (s', true))) := by
  have hi := reach_inv (by simpa using hN) h
  obtain ⟨hc, hd⟩ := hi.fix N rfl
  refine ⟨by have := hi.rep.le_cap; omega, hi.rep.size, ?_, at_spec hi, top_spec hi, ?_, ?_⟩
  · obtain ⟨b, hb⟩ := Option.isSome_iff_exists.1 hd
    exact ⟨b, hb, by rw [(hi.rep.blk b hb).1, hc]⟩
  · intro o hv
    obtain ⟨s', r, x, e1, _, e3, e4, e5⟩ := step_spec hi o hv
    exact ⟨s', r, x, e1, e3, e4, e5⟩
  · intro ok x
    obtain ⟨s', r, e1, _, e3, e4⟩ := push_spec hi ok x
    constructor
    · intro hl
      cases r
      · rw [e1, (e4 rfl).1]
      · exact absurd ((e3 rfl).2 N rfl) (by omega)
    · intro hl
      cases r
      · exact absurd (e4 rfl).2 (by simp only; omega)
      · exact ⟨s', e1⟩

/-- A full stack of capacity 2. -/
theorem reach_full : Reach (some 2) (⟨some [some 1, some 3], 2, 2, [2]⟩ : Stack Nat) [1, 3] := by
  have h1 := Reach.call (fixed := some 2) (o := .push true 1) Reach.init (by decide) rfl
  have h2 := Reach.call (o := .push true 2) h1 (by decide) rfl
  have h3 := Reach.call (o := .pop) h2 (by decide) rfl
  exact Reach.call (o := .push true 3) h3 (by decide) rfl

example : push (some 2) true (⟨some [some 1, some 3], 2, 2, [2]⟩ : Stack Nat) 4 =
    some (⟨some [some 1, some 3], 2, 2, [2]⟩, false) :=
  ((fixed_stack (by decide) reach_full).2.2.2.2.2.2 true 4).1 rfl

/-- The growing stack behaves as a list under every allocation-failure pattern. -/
theorem growing_stack {s : Stack α} {l : List α} (h : Reach none s l) :
    s.size = l.length ∧ (∀ i, at' s i = l[i]?) ∧ top s = l.getLast? ∧
    (∀ o, valid l o → ∃ s' r x, step none s o = some (s', r, x) ∧ x = out l o ∧
      s'.dropped = s.dropped ++ destroyed l o ∧ (r = false → s' = s)) ∧
    (∀ x, ∃ s', push none true s x = some (s', true)) := by
  have hi := reach_inv (by simp) h
  refine ⟨hi.rep.size, at_spec hi, top_spec hi, ?_, ?_⟩
  · intro o hv
    obtain ⟨s', r, x, e1, _, e3, e4, e5⟩ := step_spec hi o hv
    exact ⟨s', r, x, e1, e3, e4, e5⟩
  · intro x
    obtain ⟨s', r, e1, _, e3, e4⟩ := push_spec hi true x
    cases r
    · exact absurd (e4 rfl).2 (by simp)
    · exact ⟨s', e1⟩

example : ∃ s : Stack Nat, Reach none s [1, 2, 3] ∧ top s = some 3 := by
  have h1 := Reach.call (fixed := none) (o := .push true 1) Reach.init (by decide) rfl
  have h2 := Reach.call (o := .append true [2, 3]) h1 (by decide) rfl
  exact ⟨_, h2, rfl⟩

/-- C03 (partial: non-empty stack) for both stack variants. -/
theorem stack_iterate_partial {fixed : Option Nat} (hf : fixed ≠ some 0) {s : Stack α} {l : List α}
    (h : Reach fixed s l) (hne : l ≠ []) (fuel : Nat) (hfuel : l.length ≤ fuel) :
    each s fuel = some l ∧ eachReverse s fuel = some l.reverse := by
  have hr := (reach_inv hf h).rep
  obtain ⟨b, hd, _, h2, _⟩ := hr.blk_of_ne hne
  have hpos := List.length_pos_iff.2 hne
  constructor
  · have := Vec.each_aux hd h2 l.length 0 fuel (by omega) hpos hfuel
    simpa [each, Vec.each, Vec.begin, hd, hr.size] using this
  · have h5 : (s.size : Int) - 1 = ((l.length - 1 : Nat) : Int) := by rw [hr.size]; omega
    simp only [eachReverse, Vec.eachReverse, hd, Option.isSome_some, if_true, h5]
    rw [Vec.rev_aux hd h2 _ fuel (by omega) (by omega), List.take_of_length_le (by omega)]

example : each (⟨some [some 1, some 3], 2, 2, [2]⟩ : Stack Nat) 2 = some [1, 3] :=
  (stack_iterate_partial (by decide) reach_full (by decide) 2 (by decide)).1

/-- C03, refutation for an empty fixed stack: iterating a freshly initialised one already reads
a dead slot. -/
theorem stack_iterate_empty_undefined :
    ∃ s : Stack Nat, Reach (some 2) s [] ∧ ∀ fuel, each s fuel = none ∧ eachReverse s fuel = none :=
  ⟨_, .init, fun fuel => by cases fuel <;> exact ⟨rfl, rfl⟩⟩

/-- Finding: the fixed-capacity `append_uninit` refuses requests that fit: 4 of 6 slots are
used, 2 more are requested, and NULL is returned because the growth policy `size*3/2 + n` is
compared with the capacity. -/
theorem fixed_append_spurious_failure :
    ∃ (s : Stack Nat) (l : List Nat), Reach (some 6) s l ∧ l.length + 2 ≤ 6 ∧
      append (some 6) true s [8, 9] = some (s, false) := by
  have h1 := Reach.call (fixed := some 6) (o := .append true [1, 2, 3, 4]) Reach.init (by decide) rfl
  exact ⟨_, _, h1, by decide, rfl⟩

end Verif.Stack
