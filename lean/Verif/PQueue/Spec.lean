import Verif.PQueue.Model
import Verif.Order
/- Specification of `pqueue`: a multiset with a maximum. -/
namespace Verif.PQueue.Spec
variable {α : Type _}

/-- Caller preconditions for a queue holding `n` elements. A push whose allocation fails is
excluded (see `pqueue_push_failure_undefined`), as are requests for no capacity at all (see
`pqueue_shrink_empty_undefined`). -/
def valid (n : Nat) : Op α → Prop
  | .push ok _ => ok = true
  | .pop => 0 < n
  | .eraseAt i => i < n
  | .store i _ => i < n
  | .reserve _ cap => 0 < cap
  | .shrinkToFit _ => 0 < n
  | .makeHeap | .clear => True

instance (n : Nat) (o : Op α) : Decidable (valid n o) :=
  match o with
  | .push ok _ => inferInstanceAs (Decidable (ok = true))
  | .pop => inferInstanceAs (Decidable (0 < n))
  | .eraseAt i => inferInstanceAs (Decidable (i < n))
  | .store i _ => inferInstanceAs (Decidable (i < n))
  | .reserve _ cap => inferInstanceAs (Decidable (0 < cap))
  | .shrinkToFit _ => inferInstanceAs (Decidable (0 < n))
  | .makeHeap => inferInstanceAs (Decidable True)
  | .clear => inferInstanceAs (Decidable True)

/-- Elements entering with a call. -/
def entered : Op α → List α
  | .push _ x => [x]
  | .store _ x => [x]
  | _ => []

/-- Is the queue known to be ordered after the call? Direct stores and `erase_at` in the middle
lose it, `make_heap` and `clear` regain it. -/
def ordered (h : Bool) : Op α → Bool
  | .store _ _ => false
  | .eraseAt i => h && i == 0
  | .makeHeap | .clear => true
  | _ => h

/-- Histories: `ent` all elements that entered, `outs` those handed to the caller, `h` whether
the queue is known to be ordered. -/
inductive Reach (less : α → α → Bool) : PQ α → List α → List α → Bool → Prop
  | init : Reach less init [] [] true
  | call {q q' : PQ α} {ent outs : List α} {h : Bool} {o : Op α} {r : Option α} :
      Reach less q ent outs h → valid q.elems.length o → step less q o = some (q', r) →
      Reach less q' (ent ++ entered o) (outs ++ r.toList) (ordered h o)

/-- No element of `l` compares greater than `x`. -/
def IsMax (less : α → α → Bool) (x : α) (l : List α) : Prop := x ∈ l ∧ ∀ y ∈ l, less x y = false

/-- Take `top()` and `pop()` until the queue is empty (at most `fuel` times). -/
def drain (less : α → α → Bool) : Nat → PQ α → Option (List α)
  | 0, q => if q.elems.length = 0 then some [] else none
  | fuel + 1, q =>
    if q.elems.length = 0 then some []
    else do
      let x ← top q
      let q ← pop less q
      let xs ← drain less fuel q
      some (x :: xs)

end Verif.PQueue.Spec
