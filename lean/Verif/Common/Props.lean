import Verif.Common.Lemmas
/- C66: `c_next_pow2`. -/
namespace Verif.Common

/-- C66. For every `1 ≤ n ≤ 2^63`, `c_next_pow2(n)` is a power of two, at least `n`, and no
smaller power of two is. -/
theorem next_pow2_least (n : Nat) (h1 : 1 ≤ n) (h2 : n ≤ 2 ^ 63) :
    (∃ k, nextPow2 n = 2 ^ k) ∧ n ≤ nextPow2 n ∧ ∀ j, n ≤ 2 ^ j → nextPow2 n ≤ 2 ^ j := by
  obtain ⟨k, e1, e2, e3⟩ := nextPow2_pred (n - 1) (by omega)
  have hn : n - 1 + 1 = n := by omega
  rw [hn] at e1
  refine ⟨⟨k, e1⟩, by omega, fun j hj => ?_⟩
  rw [e1]
  apply Nat.pow_le_pow_right (by omega)
  rcases e3 with h | h
  · omega
  · rcases Nat.lt_or_ge j k with hjk | hjk
    · have := Nat.pow_le_pow_right (n := 2) (by omega) (show j ≤ k - 1 by omega)
      omega
    · exact hjk

example : nextPow2 1 = 1 ∧ nextPow2 1000 = 1024 ∧ nextPow2 (2 ^ 61 + 1) = 2 ^ 62 := by decide

end Verif.Common
