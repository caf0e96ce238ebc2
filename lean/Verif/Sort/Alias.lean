import Verif.Sort.Model
/-
The same sort for elements whose raw view points into the element itself: `i_keytoraw` of a
`cstr` is `cstr_str(&elem)` (cstr.h), a pointer which for a short string points into the element's
own inline buffer. The pivot of sort_prv.h:86 is then not a value but a reference to slot `c`,
and its contents change when slot `c` is swapped. The insertion sort copies the element first
(sort_prv.h:71-72) and is not affected.
-/
namespace Verif.Sort.Alias
variable {α : Type _}

/-- sort_prv.h:90 with the pivot read from slot `c`. -/
def scanUp (less : α → α → Bool) (c : Int) (l : List α) : Nat → Int → Option Int
  | 0, _ => none
  | fuel + 1, i => do
    let v ← getI l c
    let x ← getI l i
    if less x v then (if i + 1 = 0 then some (i + 1) else scanUp less c l fuel (i + 1)) else some i

/-- sort_prv.h:91 with the pivot read from slot `c`. -/
def scanDown (less : α → α → Bool) (c : Int) (l : List α) : Nat → Int → Option Int
  | 0, _ => none
  | fuel + 1, j => do
    let v ← getI l c
    let x ← getI l j
    if less v x then (if j - 1 = 0 then some (j - 1) else scanDown less c l fuel (j - 1)) else some j

/-- sort_prv.h:89-95. -/
def partition (less : α → α → Bool) (c : Int) : Nat → List α → Int → Int → Option (List α × Int × Int)
  | 0, _, _, _ => none
  | fuel + 1, l, i, j => do
    let i ← scanUp less c l (l.length + 1) i
    let j ← scanDown less c l (l.length + 1) j
    if i > j then some (l, i, j)
    else do
      let l ← swapI l i j
      if i + 1 ≤ j - 1 then partition less c fuel l (i + 1) (j - 1)
      else some (l, i + 1, j - 1)

/-- sort_prv.h:83-104. -/
def sortLH (less : α → α → Bool) : Nat → List α → Int → Int → Option (List α)
  | 0, _, _, _ => none
  | fuel + 1, l, lo, hi =>
    if lo < hi then do
      let (l, i, j) ← partition less (lo + (hi - lo) * 7 / 16) (l.length + 1) l lo hi
      let (lo, i, hi, j) := if j - lo > hi - i then (i, lo, j, hi) else (lo, i, hi, j)
      let l ← sortPart less (sortLH less fuel) l lo j
      sortLH less fuel l i hi
    else some l

/-- sort_prv.h:54-55 `_sort`. -/
def sort (less : α → α → Bool) (l : List α) : Option (List α) :=
  sortLH less (l.length + 2) l 0 ((l.length : Int) - 1)

end Verif.Sort.Alias
