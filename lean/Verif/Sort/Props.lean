import Verif.Sort.Lemmas
import Verif.Sort.Alias
/- C13 - C16: sorting and binary search. -/
namespace Verif.Sort
open Spec
variable {α : Type}

/-- C13. For every size and contents and every strict weak ordering, `sort` terminates with all
accesses in range, and the result is a sorted permutation. -/
theorem sort_correct {less : α → α → Bool} (hw : StrictWeak less) (l : List α) :
    ∃ l', sort less l = some l' ∧ l'.Perm l ∧ Sorted less l' := by
  obtain ⟨l', e, p, s⟩ := sortLH_spec hw (l.length + 2) l 0 ((l.length : Int) - 1) (by omega) (by omega)
    (by omega) (by intro p q x y h1; omega)
  refine ⟨l', e, p.perm, ?_⟩
  unfold Sorted
  rw [List.pairwise_iff_getElem]
  intro i j hi hj hij
  have := p.length
  exact s i j _ _ (by omega) hij (by omega) (List.getElem?_eq_getElem hi) (List.getElem?_eq_getElem hj)

def natLess (a b : Nat) : Bool := decide (a < b)

theorem natLess_sw : StrictWeak natLess := strictWeak_nat

/-- A case running through partition, recursion on both sides and insertion sort. -/
example : ∃ l', sort natLess [5, 2, 9, 1, 5, 6, 3, 8, 7, 0] = some l' ∧
    l'.Perm [5, 2, 9, 1, 5, 6, 3, 8, 7, 0] ∧ Sorted natLess l' := sort_correct natLess_sw _

example : sort natLess [5, 2, 9, 1, 5, 6, 3, 8, 7, 0] = some [0, 1, 2, 3, 5, 5, 6, 7, 8, 9] := by decide

/-- C14 (partial). `sort_lowhigh(lo, hi)` for `0 ≤ lo` and `hi` in range sorts positions
`lo..hi` and changes nothing outside, provided no element of the range is less than an element
below `lo` (in particular whenever `lo = 0`). Missing: arbitrary elements below `lo`, for which
the claim is false (`sort_lowhigh_disturbs_below`). -/
theorem sort_lowhigh_partial {less : α → α → Bool} (hw : StrictWeak less) (l : List α) (lo hi : Nat)
    (hhi : hi < l.length)
    (hbelow : ∀ (p q : Nat) (x y : α), p < lo → lo ≤ q → q ≤ hi → l[p]? = some x → l[q]? = some y →
      less y x = false) :
    ∃ l', sortLowHigh less l lo hi = some l' ∧ l'.Perm l ∧
      (∀ p, p < lo ∨ hi < p → l'[p]? = l[p]?) ∧
      (∀ (p q : Nat) (x y : α), lo ≤ p → p < q → q ≤ hi → l'[p]? = some x → l'[q]? = some y →
        less y x = false) := by
  obtain ⟨l', e, p, s⟩ := sortLH_spec hw (l.length + 2) l lo hi (by omega) (by omega) (by omega)
    (fun p q x y h1 h2 h3 => hbelow p q x y (by omega) (by omega) (by omega))
  exact ⟨l', e, p.perm, fun q hq => p.out q (by omega),
    fun p q x y h1 h2 h3 => s p q x y (by omega) h2 (by omega)⟩

example : ∃ l', sortLowHigh natLess [0, 1, 9, 5, 7, 3, 4, 2] 2 5 = some l' ∧ l'[6]? = some 4 :=
  let ⟨l', h1, _, h3, _⟩ := sort_lowhigh_partial natLess_sw [0, 1, 9, 5, 7, 3, 4, 2] 2 5 (by decide)
    (by
      intro p q x y h1 h2 h3 hx hy
      rcases (show p = 0 ∨ p = 1 by omega) with rfl | rfl <;>
        rcases (show q = 2 ∨ q = 3 ∨ q = 4 ∨ q = 5 by omega) with rfl | rfl | rfl | rfl <;>
        simp at hx hy <;> subst hx <;> subst hy <;> rfl)
  ⟨l', h1, h3 6 (by omega)⟩

/-- C14 fails in general: sorting positions 1..4 of 9 2 4 0 6 moves position 0, because
the insertion sort runs down to position 0 instead of `lo`. -/
theorem sort_lowhigh_disturbs_below :
    sortLowHigh natLess [9, 2, 4, 0, 6] 1 4 = some [0, 9, 2, 4, 6] := by decide

/-- C73. When the raw value points into the element (short `cstr` elements), `sort` can leave
the container unsorted: 4 8 3 2 becomes 2 4 3 8. -/
theorem sort_inline_raw_wrong :
    ∃ l', Alias.sort natLess [4, 8, 3, 2] = some l' ∧ ¬ Sorted natLess l' :=
  ⟨[2, 4, 3, 8], by decide, by simp [Sorted, natLess]⟩

/-- C15. On a sorted container `lower_bound(key)` is the index of the first element not less
than the key, or `c_NPOS` (here `none`) if there is none; it never reads out of range. -/
theorem lower_bound_correct {less : α → α → Bool} (hw : StrictWeak less) (l : List α)
    (hs : Sorted less l) (key : α) :
    ∃ r : Option Nat, lowerBound less l key = some (r.map fun n : Nat => (n : Int)) ∧
      (∀ k, r = some k → ∃ x, l[k]? = some x ∧ less x key = false ∧
        ∀ (p : Nat) y, p < k → l[p]? = some y → less y key = true) ∧
      (r = none → ∀ x ∈ l, less x key = true) := by
  unfold Sorted at hs
  rw [List.pairwise_iff_getElem] at hs
  obtain ⟨s, e, _, h2, h3, h4⟩ := lowerBoundRange_spec (less := less) key l 0 l.length (Nat.zero_le _) (Nat.le_refl _) (by
    intro p q x y _ hpq hq hx hy hlt
    by_cases hne : p = q
    · subst hne; rw [hx] at hy; cases hy; exact hlt
    · obtain ⟨hp', rfl⟩ := List.getElem?_eq_some_iff.1 hx
      obtain ⟨hq', rfl⟩ := List.getElem?_eq_some_iff.1 hy
      exact hw.lt_of_le_of_lt (hs p q hp' hq' (by omega)) hlt)
  by_cases hsl : s = l.length
  · refine ⟨none, ?_, by simp, ?_⟩
    · rw [if_pos hsl] at e; exact e
    · intro _ x hx
      obtain ⟨i, hi, rfl⟩ := List.mem_iff_getElem.1 hx
      exact h3 i _ (Nat.zero_le _) (by omega) (List.getElem?_eq_getElem hi)
  · refine ⟨some s, ?_, ?_, by simp⟩
    · rw [if_neg hsl] at e; exact e
    · intro k hk
      cases hk
      refine ⟨l[s], List.getElem?_eq_getElem (by omega), ?_, fun p y hp hy => h3 p y (Nat.zero_le _) hp hy⟩
      exact h4 s _ (Nat.le_refl _) (by omega) (List.getElem?_eq_getElem (by omega))

example : lowerBound natLess [1, 3, 3, 5, 8] 4 = some (some 3) := by decide
example : ∃ r : Option Nat, lowerBound natLess [1, 3, 3, 5, 8] 4 = some (r.map fun n : Nat => (n : Int)) ∧
    (r = none → ∀ x ∈ [1, 3, 3, 5, 8], natLess x 4 = true) :=
  let ⟨r, h1, _, h3⟩ := lower_bound_correct natLess_sw [1, 3, 3, 5, 8] (by simp [Sorted, natLess]) 4
  ⟨r, h1, h3⟩

/-- C16. On a sorted container `binary_search(key)` returns the index of an element equivalent
to the key if there is one and `c_NPOS` otherwise. -/
theorem binary_search_correct {less : α → α → Bool} (hw : StrictWeak less) (l : List α)
    (hs : Sorted less l) (key : α) :
    ∃ r : Option Nat, binarySearch less l key = some (r.map fun n : Nat => (n : Int)) ∧
      (∀ k, r = some k → ∃ x, l[k]? = some x ∧ Equiv less x key) ∧
      (r = none → ∀ x ∈ l, ¬ Equiv less x key) := by
  obtain ⟨r, e, h1, h2⟩ := lower_bound_correct hw l hs key
  unfold lowerBound at e
  cases r with
  | none =>
    refine ⟨none, by simp only [binarySearch, binarySearchRange, e]; rfl, by simp, fun _ x hx hq => ?_⟩
    have := h2 rfl x hx
    rw [hq.1] at this; cases this
  | some k =>
    obtain ⟨x, hx, hx1, hx2⟩ := h1 k rfl
    by_cases hlt : less key x = true
    · refine ⟨none, ?_, by simp, fun _ y hy hq => ?_⟩
      · simp only [binarySearch, binarySearchRange, e, Option.map_some, Option.bind_eq_bind, Option.bind_some,
          getI_nat, hx, hlt, if_true, Option.map_none]
      · obtain ⟨i, hi, rfl⟩ := List.mem_iff_getElem.1 hy
        by_cases hik : i < k
        · have := hx2 i _ hik (List.getElem?_eq_getElem hi)
          rw [hq.1] at this; cases this
        · unfold Sorted at hs
          rw [List.pairwise_iff_getElem] at hs
          obtain ⟨hk', rfl⟩ := List.getElem?_eq_some_iff.1 hx
          have : less l[i] l[k] = false := by
            by_cases hne : i = k
            · subst hne; exact hw.irrefl _
            · exact hs k i hk' hi (by omega)
          have := hw.negtrans _ _ _ hq.2 this
          rw [this] at hlt; cases hlt
    · refine ⟨some k, ?_, ?_, by simp⟩
      · simp [binarySearch, binarySearchRange, e, getI_nat, hx, hlt]
      · intro k' hk'
        cases hk'
        exact ⟨x, hx, hx1, by simpa using hlt⟩

example : binarySearch natLess [1, 3, 3, 5, 8] 5 = some (some 3) := by decide
example : ∃ r : Option Nat, binarySearch natLess [1, 3, 3, 5, 8] 4 = some (r.map fun n : Nat => (n : Int)) ∧
    (r = none → ∀ x ∈ [1, 3, 3, 5, 8], ¬ Equiv natLess x 4) :=
  let ⟨r, h1, _, h3⟩ := binary_search_correct natLess_sw [1, 3, 3, 5, 8] (by simp [Sorted, natLess]) 4
  ⟨r, h1, h3⟩

/-- C15/C16 on a sub-range `start..fin` (`lower_bound_range`, `binary_search_range`). -/
theorem lower_bound_range_correct {less : α → α → Bool} (hw : StrictWeak less) (l : List α)
    (start fin : Nat) (h : start ≤ fin) (hfin : fin ≤ l.length)
    (hs : ∀ (p q : Nat) (x y : α), start ≤ p → p < q → q < fin → l[p]? = some x → l[q]? = some y →
      less y x = false) (key : α) :
    ∃ s : Nat, lowerBoundRange less l key start fin = some (if s = fin then none else some (s : Int)) ∧
      start ≤ s ∧ s ≤ fin ∧
      (∀ (p : Nat) x, start ≤ p → p < s → l[p]? = some x → less x key = true) ∧
      (∀ (p : Nat) x, s ≤ p → p < fin → l[p]? = some x → less x key = false) :=
  lowerBoundRange_spec (less := less) key l start fin h hfin (by
    intro p q x y h0 hpq hq hx hy hlt
    by_cases hne : p = q
    · subst hne; rw [hx] at hy; cases hy; exact hlt
    · exact hw.lt_of_le_of_lt (hs p q x y h0 (by omega) hq hx hy) hlt)

example : ∃ s : Nat, lowerBoundRange natLess [9, 1, 4, 6, 0] 5 1 4 = some (if s = 4 then none else some (s : Int)) :=
  let ⟨s, h, _⟩ := lower_bound_range_correct natLess_sw [9, 1, 4, 6, 0] 1 4 (by decide) (by decide)
    (by
      intro p q x y h1 h2 h3 hx hy
      rcases (show (p = 1 ∧ q = 2) ∨ (p = 1 ∧ q = 3) ∨ (p = 2 ∧ q = 3) by omega) with ⟨rfl, rfl⟩ | ⟨rfl, rfl⟩ | ⟨rfl, rfl⟩ <;>
        simp at hx hy <;> subst hx <;> subst hy <;> rfl) 5
  ⟨s, h⟩

end Verif.Sort
