import Verif.PQueue.Model
import Verif.PQueue.Spec
import Verif.Template.Compare
/-
The heap adds the int `i_less` yields to an index (include/stc/pqueue.h:139). `Model.lean` takes `i_less` as a
truth value; here it is the int, and the two are compared.
-/
namespace Verif.PQueue
open Verif.Template (Cmp2 truth ofBool)
variable {α : Type}

/-- include/stc/pqueue.h:135-143 `_sift_down_` with the int that `i_less` yields; an index outside the live slots is
undefined (`none`).  `fuel` bounds the rounds as in `siftDownF`. -/
def siftDownIF (less : Cmp2 α) (n : Nat) : Nat → Nat → List α → Option (List α)
  | 0, _, _ => none
  | fuel + 1, r, l =>
    if r = 0 then none
    else if 2 * r ≤ n then
      match l[2 * r - 1]?, l[2 * r + (if 2 * r < n then 1 else 0) - 1]? with
      | some a, some b =>
        let ci : Int := 2 * r + less a b
        if ci ≤ 0 then none
        else
          let c := ci.toNat
          match l[r - 1]?, l[c - 1]? with
          | some x, some y =>
            if less x y ≠ 0 then siftDownIF less n fuel c ((l.set (r - 1) y).set (c - 1) x)
            else some l
          | _, _ => none
      | _, _ => none
    else some l

/-- include/stc/pqueue.h:135-143 `_sift_down_`. -/
def siftDownI (less : Cmp2 α) (n r : Nat) (l : List α) : Option (List α) := siftDownIF less n (n + 1) r l

/-- An `i_less` that yields only 0 and 1 sifts as its truth value does. -/
theorem siftDownI_eq (less : Cmp2 α) (h : ∀ x y, less x y = 0 ∨ less x y = 1) (n r : Nat) (l : List α) :
    siftDownI less n r l = siftDown (truth less) n r l := by
  unfold siftDownI siftDown
  generalize n + 1 = fuel
  induction fuel generalizing r l with
  | zero => rfl
  | succ fuel ih =>
    simp only [siftDownIF, siftDownF]
    split
    · rfl
    · split
      · cases ha : l[2 * r - 1]? with
        | none => rfl
        | some a =>
          cases hb : l[2 * r + (if 2 * r < n then 1 else 0) - 1]? with
          | none => rfl
          | some b =>
            simp only
            have hc : (2 * (r : Int) + less a b).toNat = 2 * r + (if truth less a b = true then 1 else 0) := by
              rcases h a b with e | e <;> simp [truth, e] <;> omega
            have hp : ¬ (2 * (r : Int) + less a b ≤ 0) := by
              rcases h a b with e | e <;> rw [e] <;> omega
            rw [if_neg hp, hc]
            cases l[r - 1]? with
            | none => rfl
            | some x =>
              cases l[2 * r + (if truth less a b = true then 1 else 0) - 1]? with
              | none => rfl
              | some y =>
                simp only [ih]
                by_cases e : less x y = 0 <;> simp [truth, e]
      · rfl

/-- The heap of a container whose `i_less` the user did not write sifts as the model of the queue says, with the
ordering of the container. -/
theorem siftDown_derived (p : Template.Prim α) (d : Template.Defs α) (hl : d.less = none) (n r : Nat) (l : List α) :
    siftDownI (d.ops p).less n r l = siftDown (truth (d.ops p).less) n r l :=
  siftDownI_eq _ (Template.derived_less_01 p d hl) n r l

/-- Refuted for a user's `i_less` in general: with 2 for true, a legal C condition and the very same ordering, a
heap of three elements is read outside its elements. -/
theorem siftDown_two_undefined :
    let less : Cmp2 Nat := fun x y => if x < y then 2 else 0
    StrictWeak (truth less) ∧ siftDownI less 3 1 [1, 2, 3] = none ∧
    siftDown (truth less) 3 1 [1, 2, 3] = some [3, 2, 1] := by
  intro less
  have e : truth less = fun a b => decide (a < b) := by
    funext a b; by_cases h : a < b <;> simp [truth, less, h]
  refine ⟨e ▸ strictWeak_nat, by decide, by decide⟩

example : siftDownI (Template.Defs.ops Template.intPrim { cmp := some fun a b => b - a }).less 3 1 [5, 2, 3]
    = some [2, 5, 3] := by
  rw [siftDown_derived _ _ rfl]; decide

example : siftDownI (fun x y : Nat => ofBool (decide (x < y))) 5 1 [1, 7, 8, 4, 9] = some [8, 7, 1, 4, 9] := by
  rw [siftDownI_eq _ (fun x y => by unfold ofBool; split <;> simp)]; decide

end Verif.PQueue
