import Verif.Hmap.Model
import Verif.Common.Props
import Mathlib.Tactic.Common
/- Lemmas on the single precision computations of capacities and bucket counts. -/
namespace Verif.Hmap
open Verif.Common

theorem log2_bounds {Q : Nat} (h : 2 ^ 23 ≤ Q) : 23 ≤ Nat.log2 Q ∧ 2 ^ Nat.log2 Q ≤ Q ∧ Q < 2 ^ (Nat.log2 Q + 1) := by
  have h0 : Q ≠ 0 := by intro h'; rw [h'] at h; exact absurd h (by decide)
  exact ⟨(Nat.le_log2 h0).2 h, Nat.log2_self_le h0, Nat.lt_log2_self⟩

/-- Rounding does not go below a representable number. -/
theorem rnd_ge {a b c t : Nat} (hQ : 2 ^ 23 ≤ a / b) (hc1 : 2 ^ 23 ≤ c) (hc2 : c < 2 ^ 24)
    (h : c * 2 ^ t ≤ a / b) : c * 2 ^ t ≤ rnd a b := by
  obtain ⟨h1, h2, h3⟩ := log2_bounds hQ
  obtain ⟨s, hs⟩ : ∃ s, Nat.log2 (a / b) = s + 23 := ⟨_, (Nat.sub_add_cancel h1).symm⟩
  rw [hs] at h2 h3
  have hts : t ≤ s := by
    by_contra hlt
    have : 2 ^ (s + 24) ≤ c * 2 ^ t := by
      calc 2 ^ (s + 24) ≤ 2 ^ (23 + t) := Nat.pow_le_pow_right (by decide) (by omega)
        _ = 2 ^ 23 * 2 ^ t := Nat.pow_add ..
        _ ≤ c * 2 ^ t := Nat.mul_le_mul_right _ hc1
    exact absurd (Nat.lt_of_le_of_lt (Nat.le_trans this h) h3) (by simp)
  have hq : ∀ x, x * 2 ^ s ≤ a / b → x * 2 ^ s ≤ rnd a b := by
    intro x hx
    have hxq : x ≤ a / (b * 2 ^ s) := by
      rw [← Nat.div_div_eq_div_mul]
      exact (Nat.le_div_iff_mul_le (Nat.two_pow_pos s)).2 hx
    simp only [rnd, hs, Nat.add_sub_cancel]
    apply Nat.mul_le_mul_right
    split
    · exact hxq
    · split <;> omega
  by_cases he : t = s
  · rw [he] at h ⊢; exact hq c h
  · refine Nat.le_trans ?_ (hq (2 ^ 23) (by rw [← Nat.pow_add, Nat.add_comm]; exact h2))
    calc c * 2 ^ t ≤ 2 ^ 24 * 2 ^ t := Nat.mul_le_mul_right _ (Nat.le_of_lt hc2)
      _ = 2 ^ (24 + t) := (Nat.pow_add ..).symm
      _ ≤ 2 ^ (23 + s) := Nat.pow_le_pow_right (by decide) (by omega)
      _ = 2 ^ 23 * 2 ^ s := Nat.pow_add ..

/-- A crude upper bound. -/
theorem rnd_le {a b : Nat} (hQ : 2 ^ 23 ≤ a / b) : rnd a b ≤ 2 * (a / b) := by
  obtain ⟨h1, h2, h3⟩ := log2_bounds hQ
  obtain ⟨s, hs⟩ : ∃ s, Nat.log2 (a / b) = s + 23 := ⟨_, (Nat.sub_add_cancel h1).symm⟩
  rw [hs] at h2
  have hq : 2 ^ 23 ≤ a / (b * 2 ^ s) := by
    rw [← Nat.div_div_eq_div_mul]
    refine (Nat.le_div_iff_mul_le (Nat.two_pow_pos s)).2 ?_
    rw [← Nat.pow_add, Nat.add_comm]; exact h2
  have hm : a / (b * 2 ^ s) * 2 ^ s ≤ a / b := by
    rw [← Nat.div_div_eq_div_mul]; exact Nat.div_mul_le_self _ _
  have : rnd a b ≤ (2 * (a / (b * 2 ^ s))) * 2 ^ s := by
    simp only [rnd, hs, Nat.add_sub_cancel]
    apply Nat.mul_le_mul_right
    split
    · omega
    · split <;> omega
  rw [Nat.mul_assoc] at this
  exact Nat.le_trans this (Nat.mul_le_mul_left 2 hm)

theorem rnd_exact {c t : Nat} (hc1 : 2 ^ 23 ≤ c) (hc2 : c < 2 ^ 24) : rnd (c * 2 ^ t) 1 = c * 2 ^ t := by
  have hl : Nat.log2 (c * 2 ^ t) = t + 23 := by
    rw [Nat.log2_eq_iff (by have := Nat.mul_pos (show 0 < c by omega) (Nat.two_pow_pos t); omega)]
    constructor
    · rw [Nat.pow_add, Nat.mul_comm]; exact Nat.mul_le_mul_right _ hc1
    · rw [show t + 23 + 1 = t + 24 from rfl, Nat.pow_add, Nat.mul_comm]
      exact Nat.mul_lt_mul_of_pos_left hc2 (Nat.two_pow_pos t)
  simp only [rnd, Nat.div_one, hl, Nat.add_sub_cancel, Nat.one_mul, Nat.mul_mod_left, Nat.mul_zero]
  rw [if_pos (Nat.two_pow_pos t), Nat.mul_div_cancel _ (Nat.two_pow_pos t)]

theorem toFloat_pow (p : Nat) : toFloat (2 ^ p) = 2 ^ p := by
  unfold toFloat
  split
  · rfl
  · rename_i h
    have hp : 24 ≤ p := by
      by_contra h'
      exact h (Nat.pow_lt_pow_right (by decide) (by omega))
    have : 2 ^ p = 2 ^ 23 * 2 ^ (p - 23) := by rw [← Nat.pow_add]; congr 1; omega
    rw [this]; exact rnd_exact (by decide) (by decide)

theorem capacity_pow (p : Nat) : capacity (2 ^ p) = 2 ^ p * loadNum / 2 ^ 24 := by
  unfold capacity
  rw [if_neg (by have := Nat.two_pow_pos p; omega), toFloat_pow]
  have : 2 ^ p * loadNum = loadNum * 2 ^ p := Nat.mul_comm ..
  rw [this, rnd_exact (by decide) (by decide)]

theorem capacity_lt (p : Nat) : capacity (2 ^ p) < 2 ^ p := by
  rw [capacity_pow, Nat.div_lt_iff_lt_mul (by decide)]
  exact Nat.mul_lt_mul_of_pos_left (by decide) (Nat.two_pow_pos p)

theorem toFloat_ge {n c t : Nat} (hc1 : 2 ^ 23 ≤ c) (hc2 : c < 2 ^ 24) (h : c * 2 ^ t ≤ n) : c * 2 ^ t ≤ toFloat n := by
  unfold toFloat
  split
  · exact h
  · rename_i h'
    exact rnd_ge (by rw [Nat.div_one]; omega) hc1 hc2 (by rwa [Nat.div_one])

theorem toFloat_le (n : Nat) : toFloat n ≤ 2 * n := by
  unfold toFloat
  split
  · omega
  · rename_i h'
    have := rnd_le (a := n) (b := 1) (by rw [Nat.div_one]; omega)
    rwa [Nat.div_one] at this

theorem toFloat_pos {n : Nat} (h : 0 < n) : 0 < toFloat n := by
  unfold toFloat
  split
  · exact h
  · rename_i h'
    have := rnd_ge (a := n) (b := 1) (c := 2 ^ 23) (t := 0) (by rw [Nat.div_one]; omega) (by decide) (by decide)
      (by rw [Nat.div_one]; omega)
    omega

theorem quot_le (n : Nat) : quot n ≤ 8 * n := by
  unfold quot
  split
  · omega
  · rename_i h0
    have hp := toFloat_pos (n := n) (by omega)
    have hl := toFloat_le n
    have hQ : 2 ^ 23 ≤ toFloat n * 2 ^ 48 / loadNum := by
      rw [Nat.le_div_iff_mul_le (by decide)]
      have : loadNum = 13421773 := rfl
      omega
    have h1 := rnd_le hQ
    have h2 : toFloat n * 2 ^ 48 / loadNum ≤ toFloat n * 2 ^ 25 := by
      rw [show loadNum = 13421773 from rfl]
      omega
    rw [Nat.div_le_iff_le_mul_add_pred (by decide)]
    omega

/-- The number of buckets chosen for a capacity is a power of two, at least 4, and its capacity is at
least the one asked for. -/
theorem bucketsFor_spec {n : Nat} (hn : n < 2 ^ 59) :
    ∃ p, bucketsFor n = 2 ^ p ∧ 2 ≤ p ∧ n ≤ capacity (2 ^ p) := by
  have hq := quot_le n
  obtain ⟨⟨p, hp⟩, hge, hmin⟩ := next_pow2_least (quot n + 4) (by omega) (by omega)
  rw [hp] at hge
  refine ⟨p, hp, ?_, ?_⟩
  · by_contra h
    have : 2 ^ p ≤ 2 ^ 1 := Nat.pow_le_pow_right (by decide) (by omega)
    omega
  · rw [capacity_pow]
    by_contra h
    have h1 : 2 ^ p * loadNum / 2 ^ 24 < n := by omega
    have h2 : 2 ^ p * loadNum < n * 2 ^ 24 := (Nat.div_lt_iff_lt_mul (by decide)).1 h1
    have hN : 2 ^ p * loadNum ≤ toFloat n * 2 ^ 24 := by
      by_cases hsm : n < 2 ^ 24
      · rw [toFloat, if_pos hsm]; omega
      · by_cases hp24 : 24 ≤ p
        · have e : 2 ^ p = 2 ^ (p - 24) * 2 ^ 24 := by rw [← Nat.pow_add]; congr 1; omega
          have hle : loadNum * 2 ^ (p - 24) ≤ n := by
            have : loadNum * 2 ^ (p - 24) * 2 ^ 24 < n * 2 ^ 24 := by
              rw [Nat.mul_assoc, ← e, Nat.mul_comm]; exact h2
            omega
          have := toFloat_ge (c := loadNum) (t := p - 24) (by decide) (by decide) hle
          rw [e, Nat.mul_right_comm]
          apply Nat.mul_le_mul_right
          rwa [Nat.mul_comm]
        · have hge24 := toFloat_ge (n := n) (c := 2 ^ 23) (t := 1) (by decide) (by decide) (by omega)
          have : 2 ^ p ≤ 2 ^ 24 := Nat.pow_le_pow_right (by decide) (by omega)
          calc 2 ^ p * loadNum ≤ 2 ^ 24 * 2 ^ 24 := Nat.mul_le_mul this (by decide)
            _ ≤ toFloat n * 2 ^ 24 := Nat.mul_le_mul_right _ (by omega)
    have h0 : n ≠ 0 := by omega
    have hpos := toFloat_pos (n := n) (by omega)
    have hQ : 2 ^ 23 ≤ toFloat n * 2 ^ 48 / loadNum := by
      rw [Nat.le_div_iff_mul_le (by decide)]
      have : loadNum = 13421773 := rfl
      omega
    have e3 : 2 ^ 23 * 2 ^ (p + 1) = 2 ^ p * 2 ^ 24 := by
      rw [← Nat.pow_add, ← Nat.pow_add]; congr 1; omega
    have h3 := rnd_ge (c := 2 ^ 23) (t := p + 1) hQ (by decide) (by decide) (by
      rw [e3, Nat.le_div_iff_mul_le (by decide), Nat.mul_right_comm,
        show (2 ^ 48 : Nat) = 2 ^ 24 * 2 ^ 24 from rfl, ← Nat.mul_assoc]
      exact Nat.mul_le_mul_right _ hN)
    have h4 : 2 ^ p ≤ quot n := by
      rw [quot, if_neg h0, Nat.le_div_iff_mul_le (by decide), ← e3]; exact h3
    omega

end Verif.Hmap
