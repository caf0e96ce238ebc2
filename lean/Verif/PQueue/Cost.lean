import Verif.Cost.Spec
import Verif.PQueue.Model
/-
How many comparisons the operations of the priority queue take.
-/
namespace Verif.PQueue
open Cost (Settled)
variable {α : Type}

theorem siftUpF_settled {less : α → α → Bool} (v : α) : ∀ (f b c : Nat) (l : List α), c < 2 ^ (b + 1) → Settled b (fun le => siftUpF le v f c l) less := by
  intro f
  induction f with
  | zero => intro b c l _; exact Settled.const none b
  | succ f ih =>
    intro b c l hc
    by_cases h : c > 1
    · obtain ⟨b, rfl⟩ : ∃ x, b = x + 1 := by
        cases b with
        | zero => simp at hc; omega
        | succ b => exact ⟨b, rfl⟩
      simp only [siftUpF, if_pos h]
      cases hp : l[c / 2 - 1]? with
      | none => exact Settled.const none _
      | some p =>
        refine Settled.ask (x := p) (y := v) (f := fun le b => if b = true then siftUpF le v f (c / 2) (l.set (c - 1) p) else some (l.set (c - 1) v)) ?_
        by_cases hb : less p v = true
        · simp only [if_pos hb]
          exact ih b _ _ (by rw [Nat.pow_succ] at hc; omega)
        · simp only [if_neg hb]
          exact Settled.const _ _
    · simp only [siftUpF, if_neg h]
      exact Settled.const _ _

theorem siftDownF_settled {less : α → α → Bool} (n : Nat) : ∀ (f b r : Nat) (l : List α), n < r * 2 ^ (b + 1) → Settled (2 * b) (fun le => siftDownF le n f r l) less := by
  intro f
  induction f with
  | zero => intro b r l _; exact Settled.const none _
  | succ f ih =>
    intro b r l hn
    by_cases hr : r = 0
    · simp only [siftDownF, if_pos hr]
      exact Settled.const _ _
    · by_cases h : 2 * r ≤ n
      · obtain ⟨b, rfl⟩ : ∃ x, b = x + 1 := by
          cases b with
          | zero => simp at hn; omega
          | succ b => exact ⟨b, rfl⟩
        simp only [siftDownF, if_neg hr, if_pos h]
        cases ha : l[2 * r - 1]? with
        | none => exact Settled.const none _
        | some a =>
          cases hb : l[2 * r + (if 2 * r < n then 1 else 0) - 1]? with
          | none => exact Settled.const none _
          | some b' =>
            simp only
            refine Settled.ask (k := 2 * b + 1) (x := a) (y := b') (f := fun le q => match l[r - 1]?, l[2 * r + (if q = true then 1 else 0) - 1]? with
              | some x, some y => if le x y = true then siftDownF le n f (2 * r + (if q = true then 1 else 0)) ((l.set (r - 1) y).set (2 * r + (if q = true then 1 else 0) - 1) x) else some l
              | _, _ => none) ?_
            cases hx : l[r - 1]? with
            | none => exact Settled.const none _
            | some x =>
              cases hy : l[2 * r + (if less a b' = true then 1 else 0) - 1]? with
              | none => exact Settled.const none _
              | some y =>
                simp only
                refine Settled.ask (k := 2 * b) (x := x) (y := y) (f := fun le q => if q = true then siftDownF le n f (2 * r + (if less a b' = true then 1 else 0)) ((l.set (r - 1) y).set (2 * r + (if less a b' = true then 1 else 0) - 1) x) else some l) ?_
                by_cases hq : less x y = true
                · simp only [if_pos hq]
                  refine ih b _ _ ?_
                  rw [Nat.pow_succ, Nat.mul_comm _ 2, ← Nat.mul_assoc] at hn
                  refine Nat.lt_of_lt_of_le hn (Nat.mul_le_mul_right _ ?_)
                  split <;> omega
                · simp only [if_neg hq]
                  exact Settled.const _ _
      · simp only [siftDownF, if_neg hr, if_neg h]
        exact Settled.const _ _

theorem log2_lt (n : Nat) : n < 2 ^ (Nat.log2 n + 1) := Nat.lt_log2_self

theorem siftDown_settled {less : α → α → Bool} (n r : Nat) (l : List α) (hr : 0 < r) : Settled (2 * Nat.log2 (n / r)) (fun le => siftDown le n r l) less := by
  refine siftDownF_settled n (n + 1) _ r l ?_
  have h := log2_lt (n / r)
  rw [Nat.div_lt_iff_lt_mul hr, Nat.mul_comm] at h
  exact h

/-- The sum of `log2 (n / r)` for `1 ≤ r ≤ k`. -/
def sumLog (n : Nat) : Nat → Nat
  | 0 => 0
  | k + 1 => Nat.log2 (n / (k + 1)) + sumLog n k

theorem sumLog_half (n : Nat) : ∀ k, k ≤ n / 2 → sumLog n k = k + sumLog (n / 2) k := by
  intro k
  induction k with
  | zero => intro _; rfl
  | succ k ih =>
    intro hk
    rw [sumLog, sumLog, ih (by omega)]
    have : Nat.log2 (n / (k + 1)) = Nat.log2 (n / 2 / (k + 1)) + 1 := by
      rw [Nat.log2_def]
      have h2 : 2 ≤ n / (k + 1) := by rw [Nat.le_div_iff_mul_le (by omega)]; omega
      rw [if_pos h2, Nat.div_div_eq_div_mul, Nat.div_div_eq_div_mul, Nat.mul_comm]
    omega

theorem sumLog_tail (n : Nat) : ∀ k, n / 2 ≤ k → sumLog n k = sumLog n (n / 2) := by
  intro k hk
  induction k with
  | zero => rw [show n / 2 = 0 by omega]
  | succ k ih =>
    by_cases h : n / 2 = k + 1
    · rw [h]
    · rw [sumLog, ih (by omega)]
      have : n / (k + 1) < 2 := by rw [Nat.div_lt_iff_lt_mul (by omega)]; omega
      rw [Nat.log2_def, if_neg (by omega)]
      omega

theorem sumLog_le (n : Nat) : sumLog n n ≤ n := by
  induction n using Nat.strongRecOn with
  | _ n ih =>
    by_cases h : n = 0
    · subst h; exact Nat.le_refl _
    · rw [sumLog_tail n n (by omega), sumLog_half n _ (Nat.le_refl _)]
      have := ih (n / 2) (by omega)
      omega

theorem heapifyFrom_settled {less : α → α → Bool} (n : Nat) : ∀ (k : Nat) (l : List α), Settled (2 * sumLog n k) (fun le => heapifyFrom le n k l) less := by
  intro k
  induction k with
  | zero => intro l; exact Settled.const _ _
  | succ k ih =>
    intro l
    simp only [heapifyFrom, Option.bind_eq_bind, sumLog]
    rw [Nat.mul_add]
    refine Settled.bind (siftDown_settled n (k + 1) l (by omega)) (g := fun le r => r.bind fun l => heapifyFrom le n k l) ?_
    cases siftDown less n (k + 1) l with
    | none => exact Settled.const none _
    | some m => exact ih m

end Verif.PQueue
