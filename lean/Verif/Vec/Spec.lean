import Verif.Vec.Model
/-
Specification of `vec`: a mathematical list.  Nothing here mentions slots, blocks or
capacities; only the call (`Op`) and its reply are looked at.
-/
namespace Verif.Vec.Spec
variable {α : Type _}

/-- Preconditions the caller must respect (documented by the `c_assert`s). `erase_n(0, 0)` on
an empty vec is excluded: it hands the NULL pointer to `memmove`. -/
def valid (l : List α) : Op α → Prop
  | .pop | .pull => l ≠ []
  | .insertN _ idx _ => idx ≤ l.length
  | .eraseN idx n => idx + n ≤ l.length ∧ l ≠ []
  | .replace i _ => i < l.length
  | _ => True

instance (l : List α) (o : Op α) : Decidable (valid l o) :=
  match o with
  | .pop | .pull => inferInstanceAs (Decidable (l ≠ []))
  | .insertN _ idx _ => inferInstanceAs (Decidable (idx ≤ l.length))
  | .eraseN idx n => inferInstanceAs (Decidable (idx + n ≤ l.length ∧ l ≠ []))
  | .replace i _ => inferInstanceAs (Decidable (i < l.length))
  | .push _ _ | .resize _ _ _ | .reserve _ _ | .shrinkToFit _ | .clear =>
    inferInstanceAs (Decidable True)

/-- The list after a call that replied `ok`. A call that reports failure changes nothing. -/
def after (l : List α) (ok : Bool) : Op α → List α
  | .push _ x => if ok then l ++ [x] else l
  | .pop | .pull => l.dropLast
  | .insertN _ idx arr => if ok then l.take idx ++ arr ++ l.drop idx else l
  | .eraseN idx n => l.take idx ++ l.drop (idx + n)
  | .resize _ len x => if ok then l.take len ++ List.replicate (len - l.length) x else l
  | .reserve _ _ | .shrinkToFit _ => l
  | .clear => []
  | .replace i x => l.set i x

/-- The element handed to the caller. -/
def out (l : List α) : Op α → Option α
  | .pull => l.getLast?
  | .replace i _ => l[i]?
  | _ => none

/-- The elements destroyed by the call, in order. -/
def destroyed (l : List α) (ok : Bool) : Op α → List α
  | .pop => l.getLast?.toList
  | .eraseN idx n => (l.drop idx).take n
  | .resize _ len _ => if ok then l.drop len else []
  | .clear => l.reverse
  | _ => []

/-- The elements that entered the container by the call. -/
def entered (l : List α) (ok : Bool) : Op α → List α
  | .push _ x => if ok then [x] else []
  | .insertN _ _ arr => if ok then arr else []
  | .resize _ len x => if ok then List.replicate (len - l.length) x else []
  | .replace _ x => [x]
  | _ => []

/-- The outcome of the allocation the call may perform. -/
def allocOk : Op α → Bool
  | .push ok _ | .insertN ok _ _ | .resize ok _ _ | .reserve ok _ | .shrinkToFit ok => ok
  | _ => true

/-- Calls that ask for no room at all; on a never-allocated vec these report failure
although nothing had to be done. -/
def vacuous : Op α → Prop
  | .insertN _ _ arr => arr = []
  | .resize _ len _ => len = 0
  | .reserve _ cap => cap = 0
  | _ => False

/-- All histories: `Reach v l ent outs` says that some finite history of valid calls on a
fresh vec leads to the vec `v` while the same calls on the mathematical list lead to `l`;
`ent` are the elements that entered and `outs` the ones handed back to the caller. -/
inductive Reach : Vec α → List α → List α → List α → Prop
  | init : Reach init [] [] []
  | call {v v' : Vec α} {l ent outs : List α} {o : Op α} {r : Reply α} :
      Reach v l ent outs → valid l o → step v o = some (v', r) →
      Reach v' (after l r.ok o) (ent ++ entered l r.ok o) (outs ++ (out l o).toList)

end Verif.Vec.Spec
