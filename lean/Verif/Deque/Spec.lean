import Verif.Deque.Model
/- Specification of `deque`/`queue`: a mathematical list, front first. -/
namespace Verif.Deque.Spec
variable {α : Type _}

/-- Largest number of elements considered (`isize` arithmetic must not overflow). -/
def maxLen : Nat := 2 ^ 61

/-- Caller preconditions. For `insert_n` the allocation is required to succeed: see
`deque_insert_failure` for what happens otherwise. -/
def valid (l : List α) : Op α → Prop
  | .pop | .pull | .popBack | .pullBack => l ≠ []
  | .push _ _ | .pushFront _ _ => l.length < maxLen
  | .insertN ok idx arr => idx ≤ l.length ∧ ok = true ∧ l.length + arr.length < maxLen
  | .eraseN idx n => idx + n ≤ l.length
  | .reserve _ cap => cap < maxLen
  | .shrinkToFit _ => l.length < maxLen
  | .clear => True
  | .replace idx _ => idx < l.length

instance (l : List α) (o : Op α) : Decidable (valid l o) :=
  match o with
  | .pop | .pull | .popBack | .pullBack => inferInstanceAs (Decidable (l ≠ []))
  | .push _ _ | .pushFront _ _ => inferInstanceAs (Decidable (l.length < maxLen))
  | .insertN ok idx arr =>
    inferInstanceAs (Decidable (idx ≤ l.length ∧ ok = true ∧ l.length + arr.length < maxLen))
  | .eraseN idx n => inferInstanceAs (Decidable (idx + n ≤ l.length))
  | .reserve _ cap => inferInstanceAs (Decidable (cap < maxLen))
  | .shrinkToFit _ => inferInstanceAs (Decidable (l.length < maxLen))
  | .clear => inferInstanceAs (Decidable True)
  | .replace idx _ => inferInstanceAs (Decidable (idx < l.length))

/-- The list after a call that replied `ok`. -/
def after (l : List α) (ok : Bool) : Op α → List α
  | .push _ x => if ok then l ++ [x] else l
  | .pushFront _ x => if ok then x :: l else l
  | .pop | .pull => l.tail
  | .popBack | .pullBack => l.dropLast
  | .insertN _ idx arr => l.take idx ++ arr ++ l.drop idx
  | .eraseN idx n => l.take idx ++ l.drop (idx + n)
  | .reserve _ _ | .shrinkToFit _ => l
  | .clear => []
  | .replace idx x => l.set idx x

/-- The element handed out. -/
def out (l : List α) : Op α → Option α
  | .pull => l.head?
  | .pullBack => l.getLast?
  | .replace idx _ => l[idx]?
  | _ => none

/-- The elements destroyed by the call, in order. -/
def destroyed (l : List α) : Op α → List α
  | .pop => l.head?.toList
  | .popBack => l.getLast?.toList
  | .eraseN idx n => ((l.drop idx).take n).reverse
  | .clear => l
  | _ => []

/-- All histories of valid calls on a fresh deque. -/
inductive Reach : Deque α → List α → Prop
  | init : Reach init []
  | call {d d' : Deque α} {l : List α} {o : Op α} {r : Reply α} :
      Reach d l → valid l o → step d o = some (d', r) → Reach d' (after l r.ok o)

/-- The elements entering the deque with a call. -/
def entered (ok : Bool) : Op α → List α
  | .push _ x | .pushFront _ x => if ok then [x] else []
  | .insertN _ _ arr => arr
  | .replace _ x => [x]
  | _ => []

/-- Histories, with all elements that entered (`ent`) and all that were handed out (`outs`). -/
inductive Own : Deque α → List α → List α → List α → Prop
  | init : Own init [] [] []
  | call {d d' : Deque α} {l ent outs : List α} {o : Op α} {r : Reply α} :
      Own d l ent outs → valid l o → step d o = some (d', r) →
      Own d' (after l r.ok o) (ent ++ entered r.ok o) (outs ++ r.out.toList)

/-- The calls of the `queue` interface. -/
def isQueueOp : Op α → Bool
  | .push _ _ | .pop | .pull | .reserve _ _ | .shrinkToFit _ | .clear => true
  | _ => false

/-- Histories of queue calls: `ins` are the elements pushed (successfully) so far in order,
`outs` those removed by `pop`, `pull` or `clear` in the order of removal as observed by the
caller (returned by `pull`, or destroyed). -/
inductive Queue : Deque α → List α → List α → Prop
  | init : Queue init [] []
  | call {d d' : Deque α} {ins outs l : List α} {o : Op α} {r : Reply α} :
      Queue d ins outs → Reach d l → valid l o → isQueueOp o = true → step d o = some (d', r) →
      Queue d' (ins ++ entered r.ok o) (outs ++ r.out.toList ++ d'.dropped.drop d.dropped.length)

/-- Did the allocator succeed in this call? -/
def allocOk : Op α → Bool
  | .push ok _ | .pushFront ok _ | .insertN ok _ _ | .reserve ok _ | .shrinkToFit ok => ok
  | _ => true

/-- `reserve(0)` on a deque without a buffer reports `false` too. -/
def vacuous : Op α → Prop
  | .reserve _ cap => cap = 0
  | _ => False

end Verif.Deque.Spec
