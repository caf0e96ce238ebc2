import Verif.Order
/- Specification of sorting and searching. -/
namespace Verif.Sort.Spec
variable {α : Type _}

/-- Adjacent order for all pairs: no element compares less than an earlier one. -/
def Sorted (less : α → α → Bool) (l : List α) : Prop := l.Pairwise (fun a b => less b a = false)

/-- Equivalent keys. -/
def Equiv (less : α → α → Bool) (a b : α) : Prop := less a b = false ∧ less b a = false

/-- index of the first element not less than the key. -/
def firstNotLess (less : α → α → Bool) (key : α) (l : List α) : Option Nat :=
  l.findIdx? (fun x => !less x key)

end Verif.Sort.Spec
