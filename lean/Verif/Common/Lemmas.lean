import Verif.Common.Model
namespace Verif.Common

theorem smear_step {n r w : Nat}
    (h : ∀ i, r.testBit i = true ↔ ∃ d, d < w ∧ n.testBit (i + d) = true) (i : Nat) :
    (r ||| (r >>> w)).testBit i = true ↔ ∃ d, d < 2 * w ∧ n.testBit (i + d) = true := by
  rw [Nat.testBit_or, Nat.testBit_shiftRight, Bool.or_eq_true, h, h]
  constructor
  · rintro (⟨d, hd, h1⟩ | ⟨d, hd, h1⟩)
    · exact ⟨d, by omega, h1⟩
    · exact ⟨w + d, by omega, by rw [← h1]; congr 1; omega⟩
  · rintro ⟨d, hd, h1⟩
    by_cases hw : d < w
    · exact .inl ⟨d, hw, h1⟩
    · exact .inr ⟨d - w, by omega, by rw [← h1]; congr 1; omega⟩

theorem nextPow2_pred (n : Nat) (hn : n < 2 ^ 64) :
    ∃ k, (nextPow2 (n + 1)) = 2 ^ k ∧ n < 2 ^ k ∧ (k = 0 ∨ 2 ^ (k - 1) ≤ n) := by
  have h0 : ∀ i, n.testBit i = true ↔ ∃ d, d < 1 ∧ n.testBit (i + d) = true := by
    intro i
    constructor
    · intro h; exact ⟨0, by omega, h⟩
    · rintro ⟨d, hd, h⟩
      have : d = 0 := by omega
      subst this; exact h
  have h1 := smear_step h0
  have h2 := smear_step h1
  have h3 := smear_step h2
  have h4 := smear_step h3
  have h5 := smear_step h4
  have h6 := smear_step h5
  simp only [Nat.mul_one, Nat.reduceMul] at h1 h2 h3 h4 h5 h6
  unfold nextPow2
  simp only [Nat.add_sub_cancel]
  generalize (_ ||| _ >>> 32) = r at h6 ⊢
  by_cases hz : n = 0
  · subst hz
    have : r = 0 := by
      apply Nat.eq_of_testBit_eq
      intro i
      simp
      have := h6 i
      simp at this
      exact this
    exact ⟨0, by simp [this], by simp, .inl rfl⟩
  · refine ⟨n.log2 + 1, ?_, Nat.lt_log2_self, .inr (by simpa using Nat.log2_self_le hz)⟩
    have hr : r = 2 ^ (n.log2 + 1) - 1 := by
      apply Nat.eq_of_testBit_eq
      intro i
      rw [Nat.testBit_two_pow_sub_one]
      rw [Bool.eq_iff_iff, h6, decide_eq_true_iff]
      constructor
      · rintro ⟨d, _, hd⟩
        have h7 := Nat.ge_two_pow_of_testBit hd
        have h8 : i + d ≤ n.log2 := (Nat.le_log2 hz).2 h7
        omega
      · intro hi
        have hlog : n.log2 < 64 := (Nat.log2_lt hz).2 hn
        refine ⟨n.log2 - i, by omega, ?_⟩
        have : i + (n.log2 - i) = n.log2 := by omega
        rw [this]
        exact Nat.testBit_log2 hz
    have : 0 < 2 ^ (n.log2 + 1) := Nat.pow_pos (by omega)
    omega

theorem land_mask (x : Int) (k : Nat) : (land x (2 ^ k - 1) : Int) = x % (2 ^ k : Int) := by
  have hk : 0 < 2 ^ k := Nat.pow_pos (by omega)
  have hc : ((2 ^ k : Nat) : Int) = (2 : Int) ^ k := by simp
  cases x with
  | ofNat n => simp [land, Nat.and_two_pow_sub_one_eq_mod]
  | negSucc n =>
    simp only [land]
    rw [Nat.and_comm, Nat.and_two_pow_sub_one_eq_mod, Int.negSucc_emod]
    · have : n % 2 ^ k < 2 ^ k := Nat.mod_lt _ hk
      rw [← hc]; generalize 2 ^ k = m at *; omega
    · rw [← hc]; exact_mod_cast hk

end Verif.Common
