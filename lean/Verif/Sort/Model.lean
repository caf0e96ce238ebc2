/-
Model of the generic sort and binary search (include/stc/priv/sort_prv.h), shared by `vec`,
`stack`, `deque`, `list` (through an array) and plain C arrays.

The container is the list of its elements accessed through `i_at`/`i_at_mut`, which are checked:
an index outside the elements is undefined (`none`); `_at` of vec, stack and deque asserts it.
Indices are `Int` since `j` may become -1. `less` is `i_less` on raw values; `i_keytoraw` is
taken to yield a value (it does not follow the element when that is overwritten), see DESIGN.md.
-/
namespace Verif.Sort
variable {α : Type _}

/-- `*i_at(self, k)`: sort_prv.h:25-31. -/
def getI (l : List α) (k : Int) : Option α := if 0 ≤ k then l[k.toNat]? else none

/-- `*i_at_mut(self, k) = x`: sort_prv.h:25-31. -/
def setI (l : List α) (k : Int) (x : α) : Option (List α) :=
  if 0 ≤ k ∧ k.toNat < l.length then some (l.set k.toNat x) else none

/-- common.h `c_swap` of two elements, as used in sort_prv.h:93. -/
def swapI (l : List α) (i j : Int) : Option (List α) := do
  let x ← getI l i
  let y ← getI l j
  let l ← setI l i y
  setI l j x

/-- sort_prv.h:90 `do { rx = at(i) } while (less(rx, pivot) && ++i)`. The first argument bounds
the number of rounds. -/
def scanUp (less : α → α → Bool) (v : α) (l : List α) : Nat → Int → Option Int
  | 0, _ => none
  | fuel + 1, i => do
    let x ← getI l i
    if less x v then (if i + 1 = 0 then some (i + 1) else scanUp less v l fuel (i + 1)) else some i

/-- sort_prv.h:91 `do { rx = at(j) } while (less(pivot, rx) && --j)`: note that it also stops when
`j` becomes 0. -/
def scanDown (less : α → α → Bool) (v : α) (l : List α) : Nat → Int → Option Int
  | 0, _ => none
  | fuel + 1, j => do
    let x ← getI l j
    if less v x then (if j - 1 = 0 then some (j - 1) else scanDown less v l fuel (j - 1)) else some j

/-- sort_prv.h:89-95, the partition loop. -/
def partition (less : α → α → Bool) (v : α) : Nat → List α → Int → Int → Option (List α × Int × Int)
  | 0, _, _, _ => none
  | fuel + 1, l, i, j => do
    let i ← scanUp less v l (l.length + 1) i
    let j ← scanDown less v l (l.length + 1) j
    if i > j then some (l, i, j)
    else do
      let l ← swapI l i j
      if i + 1 ≤ j - 1 then partition less v fuel l (i + 1) (j - 1)
      else some (l, i + 1, j - 1)

/-- sort_prv.h:73-78, the inner loop of the insertion sort with `j = jj - 1`; returns the list
and `j + 1`. -/
def insInner (less : α → α → Bool) (x : α) : Nat → List α → Option (List α × Nat)
  | 0, l => some (l, 0)
  | jj + 1, l => do
    let y ← l[jj]?
    if less x y then do
      let l ← setI l (jj + 1 : Nat) y
      insInner less x jj l
    else some (l, jj + 1)

/-- sort_prv.h:70-80, `count` rounds of the outer loop starting at `i` (where `j = i - 1`). -/
def insOuter (less : α → α → Bool) : Nat → Nat → List α → Option (List α)
  | 0, _, l => some l
  | count + 1, i, l => do
    let x ← l[i]?
    let (l, k) ← insInner less x i l
    let l ← setI l k x
    insOuter less count (i + 1) l

/-- sort_prv.h:69-81 `_insertsort_lowhigh` (called with `lo ≥ 0`). -/
def insertsort (less : α → α → Bool) (l : List α) (lo hi : Int) : Option (List α) :=
  if lo < 0 then none else insOuter less (hi - lo).toNat (lo.toNat + 1) l

/-- sort_prv.h:101-102, sorting the smaller part; `rec` is the recursive call. -/
def sortPart (less : α → α → Bool) (rec : List α → Int → Int → Option (List α)) (l : List α)
    (lo j : Int) : Option (List α) :=
  if j - lo > 64 then rec l lo j
  else if j > lo then insertsort less l lo j
  else some l

/-- sort_prv.h:83-104 `_sort_lowhigh`; one round of the loop, the loop being the last call. The
first argument bounds rounds and recursion depth. At the start of every round `i = lo`. -/
def sortLH (less : α → α → Bool) : Nat → List α → Int → Int → Option (List α)
  | 0, _, _, _ => none
  | fuel + 1, l, lo, hi =>
    if lo < hi then do
      let v ← getI l (lo + (hi - lo) * 7 / 16)
      let (l, i, j) ← partition less v (l.length + 1) l lo hi
      let (lo, i, hi, j) := if j - lo > hi - i then (i, lo, j, hi) else (lo, i, hi, j)
      let l ← sortPart less (sortLH less fuel) l lo j
      sortLH less fuel l i hi
    else some l

/-- sort_prv.h:83-104 `_sort_lowhigh`. -/
def sortLowHigh (less : α → α → Bool) (l : List α) (lo hi : Int) : Option (List α) :=
  sortLH less (l.length + 2) l lo hi

/-- sort_prv.h:54-55 and 39-40 `_sort`. -/
def sort (less : α → α → Bool) (l : List α) : Option (List α) :=
  sortLowHigh less l 0 ((l.length : Int) - 1)

/-- sort_prv.h:108-120, the loop of `_lower_bound_range`; returns the final `start`. -/
def lowerLoop (less : α → α → Bool) (raw : α) (l : List α) : Nat → Int → Int → Int → Option Int
  | 0, _, _, _ => none
  | fuel + 1, start, count, stp =>
    if count > 0 then do
      let x ← getI l (start + stp)
      if less x raw then
        lowerLoop less raw l fuel (start + (stp + 1)) (count - (stp + 1)) ((count - (stp + 1)) * 7 / 8)
      else lowerLoop less raw l fuel start stp (stp / 8)
    else some start

/-- common.h `c_NPOS` is `INTPTR_MAX`; here `none` of the inner option. sort_prv.h:107-122
`_lower_bound_range`. -/
def lowerBoundRange (less : α → α → Bool) (l : List α) (raw : α) (start fin : Int) : Option (Option Int) := do
  let s ← lowerLoop less raw l ((fin - start).toNat + 1) start (fin - start) ((fin - start) / 2)
  some (if s = fin then none else some s)

/-- sort_prv.h:124-132 `_binary_search_range`. -/
def binarySearchRange (less : α → α → Bool) (l : List α) (raw : α) (start fin : Int) :
    Option (Option Int) := do
  let res ← lowerBoundRange less l raw start fin
  match res with
  | none => some none
  | some k => do
    let x ← getI l k
    some (if less raw x then none else some k)

/-- sort_prv.h:57-59. -/
def lowerBound (less : α → α → Bool) (l : List α) (raw : α) : Option (Option Int) :=
  lowerBoundRange less l raw 0 l.length

/-- sort_prv.h:61-63. -/
def binarySearch (less : α → α → Bool) (l : List α) (raw : α) : Option (Option Int) :=
  binarySearchRange less l raw 0 l.length

end Verif.Sort
