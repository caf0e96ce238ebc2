import Verif.Stack.Model
/- Specification of `stack`: a list whose end is the top. -/
namespace Verif.Stack.Spec
variable {α : Type _}

/-- Caller preconditions. -/
def valid (l : List α) : Op α → Prop
  | .pop | .pull => l ≠ []
  | _ => True

instance (l : List α) (o : Op α) : Decidable (valid l o) :=
  match o with
  | .pop | .pull => inferInstanceAs (Decidable (l ≠ []))
  | .push _ _ | .append _ _ | .reserve _ _ | .shrinkToFit _ | .clear =>
    inferInstanceAs (Decidable True)

/-- The list after a call that replied `ok`. -/
def after (l : List α) (ok : Bool) : Op α → List α
  | .push _ x => if ok then l ++ [x] else l
  | .append _ arr => if ok then l ++ arr else l
  | .pop | .pull => l.dropLast
  | .reserve _ _ | .shrinkToFit _ => l
  | .clear => []

/-- The element handed out. -/
def out (l : List α) : Op α → Option α
  | .pull => l.getLast?
  | _ => none

/-- The elements destroyed, in order. -/
def destroyed (l : List α) : Op α → List α
  | .pop => l.getLast?.toList
  | .clear => l.reverse
  | _ => []

/-- All histories of valid calls on a fresh stack. -/
inductive Reach (fixed : Option Nat) : Stack α → List α → Prop
  | init : Reach fixed (init fixed) []
  | call {s s' : Stack α} {l : List α} {o : Op α} {ok : Bool} {x : Option α} :
      Reach fixed s l → valid l o → step fixed s o = some (s', ok, x) →
      Reach fixed s' (after l ok o)

end Verif.Stack.Spec
