import Verif.Sort.Ordered

/-!
Sorting elements that are all equivalent: every partition halves the range, so the number of comparisons is of
the order `n log n`.
-/
namespace Verif.Sort
open Spec
variable {α : Type} {less : α → α → Bool}

/-- No element is less than another. -/
def Spec.Flat (less : α → α → Bool) (l : List α) : Prop := ∀ x ∈ l, ∀ y ∈ l, less x y = false

theorem Flat.set {l : List α} (h : Flat less l) {x : α} (hx : x ∈ l) (k : Nat) : Flat less (l.set k x) := by
  have sub : ∀ z ∈ l.set k x, z ∈ l := by
    intro z hz
    rcases List.mem_or_eq_of_mem_set hz with h1 | rfl
    · exact h1
    · exact hx
  intro a ha b hb
  exact h a (sub a ha) b (sub b hb)

theorem swapI_flat {l : List α} (h : Flat less l) {i j : Nat} (hi : i < l.length) (hj : j < l.length) :
    ∃ l', swapI l i j = some l' ∧ Flat less l' ∧ l'.length = l.length ∧ ∀ z ∈ l', z ∈ l := by
  refine ⟨(l.set i l[j]).set j l[i], ?_, ?_, by simp, ?_⟩
  · simp [swapI, getI_nat, setI, hi, hj]
  · intro a ha b hb
    have sub : ∀ z ∈ (l.set i l[j]).set j l[i], z ∈ l := by
      intro z hz
      rcases List.mem_or_eq_of_mem_set hz with h1 | rfl
      · rcases List.mem_or_eq_of_mem_set h1 with h2 | rfl
        · exact h2
        · exact List.getElem_mem _
      · exact List.getElem_mem _
    exact h a (sub a ha) b (sub b hb)
  · intro z hz
    rcases List.mem_or_eq_of_mem_set hz with h1 | rfl
    · rcases List.mem_or_eq_of_mem_set h1 with h2 | rfl
      · exact h2
      · exact List.getElem_mem _
    · exact List.getElem_mem _

theorem partitionC_flat {v : α} : ∀ (f : Nat) (l : List α) (i j : Nat), Flat less (v :: l) → i ≤ j → j < l.length → j - i < f →
    ∃ l' i' j' c, partitionC less v f l i j = some ((l', i', j'), c) ∧ Flat less (v :: l') ∧ l'.length = l.length ∧ c ≤ j - i + 2 ∧ i' + j' = (i : Int) + j ∧ j' < i' ∧ i' ≤ j' + 2 := by
  intro f
  induction f with
  | zero => intros; omega
  | succ f ih =>
    intro l i j h hij hj hf
    have hx : l[i]? = some l[i] := List.getElem?_eq_getElem (by omega)
    have hy : l[j]? = some l[j] := List.getElem?_eq_getElem (by omega)
    have mx : l[i] ∈ v :: l := List.mem_cons_of_mem _ (List.getElem_mem _)
    have my : l[j] ∈ v :: l := List.mem_cons_of_mem _ (List.getElem_mem _)
    have mv : v ∈ v :: l := List.mem_cons_self
    have hu : scanUpC less v l (l.length + 1) i = some ((i : Int), 1) := by
      rw [scanUpC, getI_nat, hx]
      simp only [Option.bind_some]
      rw [h _ mx _ mv]
      rfl
    have hd : scanDownC less v l (l.length + 1) j = some ((j : Int), 1) := by
      rw [scanDownC, getI_nat, hy]
      simp only [Option.bind_some]
      rw [h _ mv _ my]
      rfl
    have hfl : Flat less l := fun a ha b hb => h a (List.mem_cons_of_mem _ ha) b (List.mem_cons_of_mem _ hb)
    obtain ⟨l2, hs, f2, n2, sub⟩ := swapI_flat hfl (i := i) (j := j) (by omega) hj
    have f2' : Flat less (v :: l2) := by
      have up : ∀ z ∈ v :: l2, z ∈ v :: l := by
        intro z hz
        rcases List.mem_cons.mp hz with rfl | hz
        · exact List.mem_cons_self
        · exact List.mem_cons_of_mem _ (sub z hz)
      exact fun a ha b hb => h a (up a ha) b (up b hb)
    rw [partitionC, hu]
    simp only [Option.bind_some, hd]
    rw [if_neg (by omega), hs]
    simp only [Option.bind_some]
    by_cases hc : (i : Int) + 1 ≤ (j : Int) - 1
    · rw [if_pos hc]
      obtain ⟨l', i', j', c, e, g1, g2, g3, g4, g5, g6⟩ := ih l2 (i + 1) (j - 1) f2' (by omega) (by omega) (by omega)
      rw [show (i : Int) + 1 = ((i + 1 : Nat) : Int) by omega, show (j : Int) - 1 = ((j - 1 : Nat) : Int) by omega, e]
      exact ⟨l', i', j', _, rfl, g1, by omega, by omega, by omega, g5, g6⟩
    · rw [if_neg hc]
      exact ⟨l2, _, _, _, rfl, f2', n2, by omega, by omega, by omega, by omega⟩

theorem insOuterC_flat {l : List α} (h : Flat less l) : ∀ (count i : Nat), 0 < i → i + count ≤ l.length → insOuterC less count i l = some (l, count) := by
  intro count
  induction count with
  | zero => intros; rfl
  | succ count ih =>
    intro i h0 h1
    obtain ⟨k, rfl⟩ : ∃ k, i = k + 1 := ⟨i - 1, by omega⟩
    have hx : l[k + 1]? = some l[k + 1] := List.getElem?_eq_getElem (by omega)
    have hin : insInnerC less l[k + 1] (k + 1) l = some ((l, k + 1), 1) := by
      rw [insInnerC, show l[k]? = some l[k] from List.getElem?_eq_getElem (by omega)]
      simp only [Option.bind_some]
      rw [h _ (List.getElem_mem _) _ (List.getElem_mem _)]
      rfl
    rw [insOuterC, hx]
    simp only [Option.bind_some, hin]
    have hs : setI l ((k + 1 : Nat) : Int) l[k + 1] = some l := by
      simp only [setI]
      rw [if_pos (by omega)]
      simp
    rw [hs]
    simp only [Option.bind_some]
    rw [ih (k + 1 + 1) (by omega) (by omega)]
    rfl

theorem sortLHC_flat : ∀ (d f : Nat) (l : List α) (lo hi : Int), Flat less l → 0 ≤ lo → hi < l.length → (hi - lo + 1).toNat < f →
    (hi - lo + 1).toNat < 2 ^ (d + 1) → ∃ l' c, sortLHC less f l lo hi = some (l', c) ∧ Flat less l' ∧ l'.length = l.length ∧ c ≤ 2 * (hi - lo + 1).toNat * d := by
  intro d
  induction d with
  | zero =>
    intro f l lo hi hfl h0 h1 h2 h3
    obtain ⟨f, rfl⟩ : ∃ k, f = k + 1 := ⟨f - 1, by omega⟩
    rw [sortLHC, if_neg (by simp at h3; omega)]
    exact ⟨l, 0, rfl, hfl, rfl, by omega⟩
  | succ d ih =>
    intro f l lo hi hfl h0 h1 h2 h3
    obtain ⟨f, rfl⟩ : ∃ k, f = k + 1 := ⟨f - 1, by omega⟩
    by_cases hlt : lo < hi
    · obtain ⟨a, rfl⟩ := Int.eq_ofNat_of_zero_le h0
      obtain ⟨b, rfl⟩ := Int.eq_ofNat_of_zero_le (show 0 ≤ hi by omega)
      obtain ⟨m, hm⟩ := Int.eq_ofNat_of_zero_le (show 0 ≤ (a : Int) + ((b : Int) - a) * 7 / 16 by omega)
      have hml : m < l.length := by omega
      have hv : l[m]? = some l[m] := List.getElem?_eq_getElem hml
      have hvl : Flat less (l[m] :: l) := by
        have up : ∀ z ∈ l[m] :: l, z ∈ l := by
          intro z hz
          rcases List.mem_cons.mp hz with rfl | hz
          · exact List.getElem_mem _
          · exact hz
        exact fun x hx y hy => hfl x (up x hx) y (up y hy)
      obtain ⟨l1, i, j, c1, e1, g1, g2, g3, g4, g5, g6⟩ := partitionC_flat (less := less) (v := l[m]) (l.length + 1) l a b hvl (by omega) (by omega) (by omega)
      have gl : Flat less l1 := fun x hx y hy => g1 x (List.mem_cons_of_mem _ hx) y (List.mem_cons_of_mem _ hy)
      have hpow : 2 ^ (d + 1 + 1) = 2 * 2 ^ (d + 1) := by rw [pow_succ]; ring
      have hpos : 0 < 2 ^ d := by positivity
      have hpow1 : 2 ^ (d + 1) = 2 * 2 ^ d := by rw [pow_succ]; ring
      have part : ∀ (l : List α) (s t : Int), Flat less l → 0 ≤ s → t < l.length → (t - s + 1).toNat < f → (t - s + 1).toNat < 2 ^ (d + 1) → 0 ≤ t - s + 1 →
          ∃ l' c, sortPartC less (sortLHC less f) l s t = some (l', c) ∧ Flat less l' ∧ l'.length = l.length ∧ c ≤ 2 * (t - s + 1).toNat * d := by
        intro l s t fl s0 tl tf tk tn
        unfold sortPartC
        split
        · exact ih f l s t fl s0 tl tf tk
        · split
          · unfold insertsortC
            rw [if_neg (by omega), insOuterC_flat fl _ _ (by omega) (by omega)]
            refine ⟨_, _, rfl, fl, rfl, ?_⟩
            have hd : d ≠ 0 := by
              rintro rfl
              simp at tk
              omega
            have : 2 * (t - s + 1).toNat * 1 ≤ 2 * (t - s + 1).toNat * d := Nat.mul_le_mul_left _ (by omega)
            omega
          · exact ⟨l, 0, rfl, fl, rfl, Nat.zero_le _⟩
      have tot : ∀ p q c c' : Nat, p + q ≤ ((b : Int) - a + 1).toNat → c ≤ 2 * p * d → c' ≤ 2 * q * d → c + c' + c1 ≤ 2 * ((b : Int) - a + 1).toNat * (d + 1) := by
        intro p q c c' hpq hc hc'
        have : 2 * (p + q) * d ≤ 2 * ((b : Int) - a + 1).toNat * d := Nat.mul_le_mul_right _ (by omega)
        have e : 2 * p * d + 2 * q * d = 2 * (p + q) * d := by ring
        have e2 : 2 * ((b : Int) - a + 1).toNat * (d + 1) = 2 * ((b : Int) - a + 1).toNat * d + 2 * ((b : Int) - a + 1).toNat := by ring
        omega
      rw [sortLHC, if_pos hlt, hm, getI_nat, hv]
      simp only [Option.bind_some, e1]
      split
      · obtain ⟨l2, c2, e2, f2, n2, k2⟩ := part l1 i b gl (by omega) (by omega) (by omega) (by omega) (by omega)
        obtain ⟨l3, c3, e3, f3, n3, k3⟩ := ih f l2 a j f2 (by omega) (by omega) (by omega) (by omega)
        rw [e2]
        simp only [Option.bind_some, e3]
        exact ⟨_, _, rfl, f3, n3.trans (n2.trans g2), tot _ _ _ _ (by omega) k3 k2⟩
      · obtain ⟨l2, c2, e2, f2, n2, k2⟩ := part l1 a j gl (by omega) (by omega) (by omega) (by omega) (by omega)
        obtain ⟨l3, c3, e3, f3, n3, k3⟩ := ih f l2 i b f2 (by omega) (by omega) (by omega) (by omega)
        rw [e2]
        simp only [Option.bind_some, e3]
        exact ⟨_, _, rfl, f3, n3.trans (n2.trans g2), tot _ _ _ _ (by omega) k3 k2⟩
    · rw [sortLHC, if_neg hlt]
      exact ⟨l, 0, rfl, hfl, rfl, Nat.zero_le _⟩

/-- Sorting `n` elements none of which is less than another takes at most `2 n ⌊log₂ n⌋` comparisons. -/
theorem sort_flat {l : List α} (h : Flat less l) : ∃ l' c, sortC less l = some (l', c) ∧ sort less l = some l' ∧ c ≤ 2 * l.length * Nat.log2 l.length := by
  obtain ⟨l', c, e, -, -, hc⟩ := sortLHC_flat (Nat.log2 l.length) (l.length + 2) l 0 ((l.length : Int) - 1) h (by omega) (by omega) (by omega) (by
    have : l.length < 2 ^ (Nat.log2 l.length + 1) := Nat.lt_log2_self
    omega)
  refine ⟨l', c, e, ?_, ?_⟩
  · unfold sort sortLowHigh
    rw [← sortLHC_fst, e]
    rfl
  · refine Nat.le_trans hc (Nat.le_of_eq ?_)
    rw [show ((l.length : Int) - 1 - 0 + 1).toNat = l.length by omega]

private def lt : Nat × Nat → Nat × Nat → Bool := fun a b => decide (a.1 < b.1)

example : ∃ l' c, sortC lt [(3, 0), (3, 1), (3, 2), (3, 3), (3, 4)] = some (l', c) ∧ sort lt [(3, 0), (3, 1), (3, 2), (3, 3), (3, 4)] = some l' ∧ c ≤ 20 :=
  sort_flat (by unfold Flat lt; decide)

end Verif.Sort
