import Verif.Sort.Comparisons
import Mathlib.Tactic.Ring
import Mathlib.Tactic.Positivity
import Mathlib.Tactic.NormNum

/-!
Sorting what is already in order: nothing moves, and the number of comparisons is of the order `n log n`.
-/
namespace Verif.Sort
open Spec
variable {α : Type} {less : α → α → Bool}

/-- The elements stand in strictly increasing order. -/
def Spec.Ascending (less : α → α → Bool) (l : List α) : Prop := l.Pairwise fun x y => less x y = true

theorem asc_lt {l : List α} (h : Ascending less l) {p q : Nat} {x y : α} (hpq : p < q) (hx : l[p]? = some x) (hy : l[q]? = some y) : less x y = true := by
  obtain ⟨hp, rfl⟩ := List.getElem?_eq_some_iff.mp hx
  obtain ⟨hq, rfl⟩ := List.getElem?_eq_some_iff.mp hy
  exact List.pairwise_iff_getElem.mp h p q hp hq hpq

theorem asc_not {l : List α} (hw : StrictWeak less) (h : Ascending less l) {p q : Nat} {x y : α} (hpq : p ≤ q) (hx : l[p]? = some x) (hy : l[q]? = some y) : less y x = false := by
  rcases Nat.lt_or_ge p q with hlt | hge
  · have h1 := asc_lt h hlt hx hy
    exact hw.asymm x y h1
  · obtain rfl : p = q := by omega
    rw [hx] at hy
    cases hy
    exact hw.irrefl _

theorem scanUpC_asc (hw : StrictWeak less) {l : List α} (h : Ascending less l) {m : Nat} {v : α} (hv : l[m]? = some v) :
    ∀ (f i : Nat), i ≤ m → m - i < f → ∃ c, scanUpC less v l f i = some ((m : Int), c) := by
  intro f
  induction f with
  | zero => intros; omega
  | succ f ih =>
    intro i hi hf
    have hm : m < l.length := (List.getElem?_eq_some_iff.mp hv).1
    have hx : l[i]? = some l[i] := List.getElem?_eq_getElem (by omega)
    generalize l[i] = x at hx
    rw [scanUpC, getI_nat, hx]
    simp only [Option.bind_some]
    rcases Nat.lt_or_ge i m with hlt | hge
    · rw [if_pos (asc_lt h hlt hx hv), if_neg (by omega)]
      obtain ⟨c, e⟩ := ih (i + 1) (by omega) (by omega)
      rw [show (i : Int) + 1 = ((i + 1 : Nat) : Int) by omega, e]
      exact ⟨c + 1, rfl⟩
    · obtain rfl : i = m := by omega
      rw [hx] at hv
      cases hv
      rw [hw.irrefl]
      exact ⟨1, rfl⟩

theorem scanDownC_asc (hw : StrictWeak less) {l : List α} (h : Ascending less l) {m : Nat} {v : α} (hv : l[m]? = some v) :
    ∀ (f j : Nat), m ≤ j → j < l.length → j - m < f → ∃ c, scanDownC less v l f j = some ((m : Int), c) := by
  intro f
  induction f with
  | zero => intros; omega
  | succ f ih =>
    intro j hj hlen hf
    have hx : l[j]? = some l[j] := List.getElem?_eq_getElem (by omega)
    generalize l[j] = x at hx
    rw [scanDownC, getI_nat, hx]
    simp only [Option.bind_some]
    rcases Nat.lt_or_ge m j with hlt | hge
    · rw [if_pos (asc_lt h hlt hv hx)]
      split
      · exact ⟨1, by rw [show (j : Int) - 1 = (m : Int) by omega]⟩
      · obtain ⟨c, e⟩ := ih (j - 1) (by omega) (by omega) (by omega)
        rw [show (j : Int) - 1 = ((j - 1 : Nat) : Int) by omega, e]
        exact ⟨c + 1, rfl⟩
    · obtain rfl : j = m := by omega
      rw [hx] at hv
      cases hv
      rw [hw.irrefl]
      exact ⟨1, rfl⟩

theorem partitionC_asc (hw : StrictWeak less) {l : List α} (h : Ascending less l) {lo m hi : Nat} {v : α} (hv : l[m]? = some v) (h1 : lo ≤ m) (h2 : m ≤ hi) (h3 : hi < l.length) :
    ∃ c, partitionC less v (l.length + 1) l lo hi = some ((l, (m : Int) + 1, (m : Int) - 1), c) ∧ c ≤ hi - lo + 2 := by
  obtain ⟨cu, hu⟩ := scanUpC_asc hw h hv (l.length + 1) lo h1 (by omega)
  obtain ⟨cd, hd⟩ := scanDownC_asc hw h hv (l.length + 1) hi h2 h3 (by omega)
  have ku := scanUpC_count hu
  have kd := scanDownC_count hd
  have hs : swapI l (m : Int) m = some l := by
    have hm : m < l.length := by omega
    have e : l.set m v = l := by
      obtain ⟨_, rfl⟩ := List.getElem?_eq_some_iff.mp hv
      exact List.set_getElem_self _
    simp [swapI, getI_nat, hv, setI, hm, e]
  refine ⟨cu + cd, ?_, by omega⟩
  rw [partitionC, hu]
  simp only [Option.bind_some, hd]
  rw [if_neg (by omega), hs]
  simp only [Option.bind_some]
  rw [if_neg (by omega)]

theorem insOuterC_asc (hw : StrictWeak less) {l : List α} (h : Ascending less l) : ∀ (count i : Nat), 0 < i → i + count ≤ l.length → insOuterC less count i l = some (l, count) := by
  intro count
  induction count with
  | zero => intros; rfl
  | succ count ih =>
    intro i h0 h1
    have hi : i < l.length := by omega
    have hx : l[i]? = some l[i] := List.getElem?_eq_getElem hi
    have hy : l[i - 1]? = some l[i - 1] := List.getElem?_eq_getElem (by omega)
    obtain ⟨k, rfl⟩ : ∃ k, i = k + 1 := ⟨i - 1, by omega⟩
    have hin : insInnerC less l[k + 1] (k + 1) l = some ((l, k + 1), 1) := by
      rw [insInnerC, show l[k]? = some l[k] from List.getElem?_eq_getElem (by omega)]
      simp only [Option.bind_some]
      rw [asc_not hw h (p := k) (q := k + 1) (by omega) (List.getElem?_eq_getElem (by omega)) hx]
      rfl
    rw [insOuterC, hx]
    simp only [Option.bind_some, hin]
    have hs : setI l ((k + 1 : Nat) : Int) l[k + 1] = some l := by
      simp only [setI]
      rw [if_pos (by omega)]
      simp
    rw [hs]
    simp only [Option.bind_some]
    rw [ih (k + 1 + 1) (by omega) (by omega)]
    rfl

theorem sortLHC_asc (hw : StrictWeak less) {l : List α} (h : Ascending less l) : ∀ (d f : Nat) (lo hi : Int), 0 ≤ lo → hi < l.length → (hi - lo + 1).toNat < f →
    (hi - lo).toNat * 9 ^ d < 16 ^ d → ∃ c, sortLHC less f l lo hi = some (l, c) ∧ c ≤ (hi - lo + 2).toNat * d := by
  intro d
  induction d with
  | zero =>
    intro f lo hi h0 h1 h2 h3
    obtain ⟨f, rfl⟩ : ∃ k, f = k + 1 := ⟨f - 1, by omega⟩
    rw [sortLHC, if_neg (by simp at h3; omega)]
    exact ⟨0, rfl, by omega⟩
  | succ d ih =>
    intro f lo hi h0 h1 h2 h3
    obtain ⟨f, rfl⟩ : ∃ k, f = k + 1 := ⟨f - 1, by omega⟩
    by_cases hlt : lo < hi
    · obtain ⟨a, rfl⟩ := Int.eq_ofNat_of_zero_le h0
      obtain ⟨b, rfl⟩ := Int.eq_ofNat_of_zero_le (show 0 ≤ hi by omega)
      obtain ⟨m, hm⟩ := Int.eq_ofNat_of_zero_le (show 0 ≤ (a : Int) + ((b : Int) - a) * 7 / 16 by omega)
      have hv : l[m]? = some l[m] := List.getElem?_eq_getElem (by omega)
      generalize l[m] = v at hv
      obtain ⟨c1, e1, k1⟩ := partitionC_asc hw h (lo := a) (hi := b) hv (by omega) (by omega) (by omega)
      -- both parts are shorter by the factor 9/16
      have shorter : ∀ k : Nat, k * 16 ≤ ((b : Int) - a).toNat * 9 → k * 9 ^ d < 16 ^ d := by
        intro k hk
        have h4 : ((b : Int) - a).toNat * (9 ^ d * 9) < 16 ^ d * 16 := by rw [← pow_succ, ← pow_succ]; exact h3
        have h5 : k * 16 * 9 ^ d ≤ ((b : Int) - a).toNat * 9 * 9 ^ d := Nat.mul_le_mul_right _ hk
        have e5 : k * 16 * 9 ^ d = (k * 9 ^ d) * 16 := by ring
        have e6 : ((b : Int) - a).toNat * 9 * 9 ^ d = ((b : Int) - a).toNat * (9 ^ d * 9) := by ring
        omega
      have part : ∀ (s t : Int), 0 ≤ s → t < l.length → (t - s + 1).toNat < f → (t - s).toNat * 16 ≤ ((b : Int) - a).toNat * 9 → 0 ≤ t - s + 1 →
          ∃ c, sortPartC less (sortLHC less f) l s t = some (l, c) ∧ c ≤ (t - s + 2).toNat * d := by
        intro s t s0 tl tf tk tn
        unfold sortPartC
        split
        · exact ih f s t s0 tl tf (shorter _ tk)
        · split
          · unfold insertsortC
            rw [if_neg (by omega), insOuterC_asc hw h _ _ (by omega) (by omega)]
            refine ⟨_, rfl, ?_⟩
            have hd : d ≠ 0 := by
              rintro rfl
              have := shorter _ tk
              simp at this
              omega
            have : (t - s + 2).toNat * 1 ≤ (t - s + 2).toNat * d := Nat.mul_le_mul_left _ (by omega)
            omega
          · exact ⟨0, rfl, Nat.zero_le _⟩
      have tot : ∀ p q c c' : Nat, p + q ≤ ((b : Int) - a + 2).toNat → c ≤ p * d → c' ≤ q * d → c + c' + c1 ≤ ((b : Int) - a + 2).toNat * (d + 1) := by
        intro p q c c' hpq hc hc'
        have : (p + q) * d ≤ ((b : Int) - a + 2).toNat * d := Nat.mul_le_mul_right _ hpq
        have e : p * d + q * d = (p + q) * d := by ring
        have e2 : ((b : Int) - a + 2).toNat * (d + 1) = ((b : Int) - a + 2).toNat * d + ((b : Int) - a + 2).toNat := by ring
        omega
      rw [sortLHC, if_pos hlt, hm, getI_nat, hv]
      simp only [Option.bind_some, e1]
      split
      · obtain ⟨c2, e2, k2⟩ := part ((m : Int) + 1) b (by omega) (by omega) (by omega) (by omega) (by omega)
        obtain ⟨c3, e3, k3⟩ := ih f a ((m : Int) - 1) (by omega) (by omega) (by omega) (shorter _ (by omega))
        rw [e2]
        simp only [Option.bind_some, e3]
        exact ⟨_, rfl, tot _ _ _ _ (by omega) k3 k2⟩
      · obtain ⟨c2, e2, k2⟩ := part a ((m : Int) - 1) (by omega) (by omega) (by omega) (by omega) (by omega)
        obtain ⟨c3, e3, k3⟩ := ih f ((m : Int) + 1) b (by omega) (by omega) (by omega) (shorter _ (by omega))
        rw [e2]
        simp only [Option.bind_some, e3]
        exact ⟨_, rfl, tot _ _ _ _ (by omega) k3 k2⟩
    · rw [sortLHC, if_neg hlt]
      exact ⟨0, rfl, Nat.zero_le _⟩

/-- Sorting what already stands in strictly increasing order changes nothing and takes at most `2 (n+1) (⌊log₂ n⌋ + 1)` comparisons. -/
theorem sort_ascending (hw : StrictWeak less) {l : List α} (h : Ascending less l) :
    ∃ c, sortC less l = some (l, c) ∧ sort less l = some l ∧ c ≤ 2 * (l.length + 1) * (Nat.log2 l.length + 1) := by
  have key : (((l.length : Int) - 1) - 0).toNat * 9 ^ (2 * (Nat.log2 l.length + 1)) < 16 ^ (2 * (Nat.log2 l.length + 1)) := by
    generalize hk : Nat.log2 l.length + 1 = k
    have hlt : l.length < 2 ^ k := by rw [← hk]; exact Nat.lt_log2_self
    have h1 : (((l.length : Int) - 1) - 0).toNat < 2 ^ k := by omega
    rw [pow_mul, pow_mul]
    calc _ < 2 ^ k * (9 ^ 2) ^ k := Nat.mul_lt_mul_of_pos_right h1 (by positivity)
      _ = (2 * 9 ^ 2) ^ k := by rw [mul_pow]
      _ ≤ (16 ^ 2) ^ k := Nat.pow_le_pow_left (by norm_num) k
  obtain ⟨c, e, hc⟩ := sortLHC_asc hw h _ (l.length + 2) 0 ((l.length : Int) - 1) (by omega) (by omega) (by omega) key
  refine ⟨c, e, ?_, ?_⟩
  · unfold sort sortLowHigh
    rw [← sortLHC_fst, e]
    rfl
  · refine Nat.le_trans hc (Nat.le_of_eq ?_)
    rw [show ((l.length : Int) - 1 - 0 + 2).toNat = l.length + 1 by omega]
    ring

private def lt : Nat → Nat → Bool := fun a b => decide (a < b)
private theorem lt_sw : StrictWeak lt := strictWeak_nat

example : ∃ c, sortC lt [1, 3, 4, 7, 8, 12, 15, 20] = some ([1, 3, 4, 7, 8, 12, 15, 20], c) ∧ sort lt [1, 3, 4, 7, 8, 12, 15, 20] = some [1, 3, 4, 7, 8, 12, 15, 20] ∧ c ≤ 72 :=
  sort_ascending lt_sw (by unfold Ascending lt; decide)
example : sortC lt [1, 3, 4, 7, 8, 12, 15, 20] = some ([1, 3, 4, 7, 8, 12, 15, 20], 19) := by decide +kernel

end Verif.Sort
