import Verif.Cost.Spec
import Verif.Sort.Lemmas
/-
How much sorting and searching take: nested calls and comparisons.
-/
namespace Verif.Sort
open Cost (Settled)
variable {α : Type}

/-! ### the nesting of calls -/

/-- sort_prv.h:83-104 `_sort_lowhigh` with a stack of calls: `rec` is the recursive call, the first number
bounds the rounds of the loop of this call. -/
def sortRounds (less : α → α → Bool) (rec : List α → Int → Int → Option (List α)) : Nat → List α → Int → Int → Option (List α)
  | 0, _, _, _ => none
  | f + 1, l, lo, hi =>
    if lo < hi then do
      let v ← getI l (lo + (hi - lo) * 7 / 16)
      let (l, i, j) ← partition less v (l.length + 1) l lo hi
      let (lo, i, hi, j) := if j - lo > hi - i then (i, lo, j, hi) else (lo, i, hi, j)
      let l ← sortPart less rec l lo j
      sortRounds less rec f l i hi
    else some l

/-- sort_prv.h:83-104 `_sort_lowhigh` when there is room for `d` frames on the stack of calls: a call too
many is undefined. -/
def sortFrames (less : α → α → Bool) (f : Nat) : Nat → List α → Int → Int → Option (List α)
  | 0, _, _, _ => none
  | d + 1, l, lo, hi => sortRounds less (sortFrames less f d) f l lo hi

theorem scanUp_ge {less : α → α → Bool} {v : α} {l : List α} : ∀ {f : Nat} {i k : Int}, scanUp less v l f i = some k → i ≤ k := by
  intro f
  induction f with
  | zero => intro i k h; cases h
  | succ f ih =>
    intro i k h
    rw [scanUp] at h
    cases hg : getI l i with
    | none => simp [hg] at h
    | some x =>
      simp only [hg, Option.bind_eq_bind, Option.bind_some] at h
      split at h
      · split at h
        · cases h; omega
        · have := ih h; omega
      · cases h; omega

theorem scanDown_le {less : α → α → Bool} {v : α} {l : List α} : ∀ {f : Nat} {j k : Int}, scanDown less v l f j = some k → k ≤ j := by
  intro f
  induction f with
  | zero => intro i k h; cases h
  | succ f ih =>
    intro i k h
    rw [scanDown] at h
    cases hg : getI l i with
    | none => simp [hg] at h
    | some x =>
      simp only [hg, Option.bind_eq_bind, Option.bind_some] at h
      split at h
      · split at h
        · cases h; omega
        · have := ih h; omega
      · cases h; omega

theorem partition_bounds {less : α → α → Bool} {v : α} : ∀ {f : Nat} {l l' : List α} {i j i' j' : Int}, partition less v f l i j = some (l', i', j') → i ≤ i' ∧ j' ≤ j ∧ j' < i' := by
  intro f
  induction f with
  | zero => intro l l' i j i' j' h; cases h
  | succ f ih =>
    intro l l' i j i' j' h
    rw [partition] at h
    cases h1 : scanUp less v l (l.length + 1) i with
    | none => simp [h1] at h
    | some a =>
      cases h2 : scanDown less v l (l.length + 1) j with
      | none => simp [h1, h2] at h
      | some b =>
        have := scanUp_ge h1
        have := scanDown_le h2
        simp only [h1, h2, Option.bind_eq_bind, Option.bind_some] at h
        split at h
        · cases h; omega
        · cases h3 : swapI l a b with
          | none => simp [h3] at h
          | some m =>
            simp only [h3, Option.bind_some] at h
            split at h
            · have := ih h; omega
            · cases h; omega

/-- With half as many elements one frame less is enough. -/
theorem sortFrames_of {less : α → α → Bool} {F : Nat} : ∀ (d : Nat), 0 < d → ∀ (f : Nat) (l l' : List α) (lo hi : Int) (f' : Nat), f ≤ f' → f ≤ F →
    sortLH less f l lo hi = some l' → hi - lo + 1 < 66 * 2 ^ d → sortRounds less (sortFrames less F (d - 1)) f' l lo hi = some l' := by
  intro d
  induction d with
  | zero => intro h; omega
  | succ d ihd =>
    intro _ f
    induction f with
    | zero => intro l l' lo hi f' _ _ h; cases h
    | succ f ihf =>
      intro l l' lo hi f' hf hF h hsz
      obtain ⟨f', rfl⟩ : ∃ x, f' = x + 1 := ⟨f' - 1, by omega⟩
      rw [sortLH] at h
      rw [sortRounds]
      by_cases hlt : lo < hi
      · rw [if_pos hlt] at h ⊢
        cases h1 : getI l (lo + (hi - lo) * 7 / 16) with
        | none => simp [h1] at h
        | some v =>
          simp only [h1, Option.bind_eq_bind, Option.bind_some] at h ⊢
          cases h2 : partition less v (l.length + 1) l lo hi with
          | none => simp [h2] at h
          | some p =>
            obtain ⟨m, i, j⟩ := p
            obtain ⟨b1, b2, b3⟩ := partition_bounds h2
            simp only [h2, Option.bind_some] at h ⊢
            have part : ∀ {x y : Int} {r : List α}, 2 * (y - x + 1) ≤ hi - lo + 1 → sortPart less (sortLH less f) m x y = some r → sortPart less (sortFrames less F (d + 1 - 1)) m x y = some r := by
              intro x y r hxy hr
              unfold sortPart at hr ⊢
              split
              · rename_i h64
                rw [if_pos h64] at hr
                cases d with
                | zero => simp only [Nat.zero_add, Nat.pow_one] at hsz; omega
                | succ d =>
                  refine ihd (by omega) f m r x y F (by omega) (by omega) hr ?_
                  rw [Int.pow_succ] at hsz
                  omega
              · rename_i h64
                rw [if_neg h64] at hr
                exact hr
            split at h
            · rename_i hs
              simp only [if_pos hs]
              cases h3 : sortPart less (sortLH less f) m i hi with
              | none => simp [h3] at h
              | some r =>
                simp only [h3, Option.bind_some] at h
                rw [part (by omega) h3, Option.bind_some]
                exact ihf r l' lo j f' (by omega) (by omega) h (by omega)
            · rename_i hs
              simp only [if_neg hs]
              cases h3 : sortPart less (sortLH less f) m lo j with
              | none => simp [h3] at h
              | some r =>
                simp only [h3, Option.bind_some] at h
                rw [part (by omega) h3, Option.bind_some]
                exact ihf r l' i hi f' (by omega) (by omega) h (by omega)
      · rw [if_neg hlt] at h ⊢
        exact h

/-! ### comparisons of a search -/

theorem lowerLoop_settled {less : α → α → Bool} (raw : α) (l : List α) : ∀ (f k : Nat) (start count stp : Int), 7 ^ k * count.toNat < 8 ^ k →
    (0 < count → 0 ≤ stp ∧ 8 * stp ≤ 7 * count ∧ count ≤ 8 * (stp + 1)) → Settled k (fun le => lowerLoop le raw l f start count stp) less := by
  intro f
  induction f with
  | zero => intro k start count stp _ _; exact Settled.const none k
  | succ f ih =>
    intro k start count stp hk hs
    by_cases hc : 0 < count
    · obtain ⟨s1, s2, s3⟩ := hs hc
      obtain ⟨k, rfl⟩ : ∃ x, k = x + 1 := by
        cases k with
        | zero => simp at hk; omega
        | succ k => exact ⟨k, rfl⟩
      have step : ∀ c : Int, 8 * c ≤ 7 * count → 7 ^ k * c.toNat < 8 ^ k := by
        intro c hc'
        have h8 : 8 * c.toNat ≤ 7 * count.toNat := by omega
        rw [Nat.pow_succ, Nat.pow_succ] at hk
        have h1 : 7 ^ k * (8 * c.toNat) ≤ 7 ^ k * (7 * count.toNat) := Nat.mul_le_mul (Nat.le_refl _) h8
        have h2 : 7 ^ k * (8 * c.toNat) = (7 ^ k * c.toNat) * 8 := by rw [Nat.mul_comm 8, Nat.mul_assoc]
        have h3 : 7 ^ k * (7 * count.toNat) = 7 ^ k * 7 * count.toNat := by rw [Nat.mul_assoc]
        omega
      simp only [lowerLoop, if_pos hc]
      cases hg : getI l (start + stp) with
      | none => exact Settled.const none _
      | some x =>
        simp only [Option.bind_eq_bind, Option.bind_some]
        refine Settled.ask (x := x) (y := raw) (f := fun le b => if b = true then lowerLoop le raw l f (start + (stp + 1)) (count - (stp + 1)) ((count - (stp + 1)) * 7 / 8) else lowerLoop le raw l f start stp (stp / 8)) ?_
        by_cases hb : less x raw = true
        · simp only [if_pos hb]
          exact ih k _ _ _ (step _ (by omega)) (fun h => by omega)
        · simp only [if_neg hb]
          exact ih k _ _ _ (step _ (by omega)) (fun h => by omega)
    · simp only [lowerLoop, if_neg hc]
      exact Settled.const _ _

theorem pow78 (b : Nat) : 7 ^ (6 * b) * 2 ^ b ≤ 8 ^ (6 * b) := by
  rw [Nat.pow_mul, Nat.pow_mul, ← Nat.mul_pow]
  exact Nat.pow_le_pow_left (by decide) b

end Verif.Sort
