/-
Model of `pqueue` (include/stc/pqueue.h): a binary max-heap in a growing array.

The block is represented by the list of its live slots `0 .. size-1` together with the
capacity; every read and write is checked (`none` = undefined behaviour). `less` is the user
supplied `i_less`. `i_keyclone` is the identity on values.
-/
namespace Verif.PQueue
variable {α : Type _}

/-- types.h `_c_vec_types`: `{ value* data; isize size, capacity; }`; `alloc` is `data != NULL`,
`elems` the live elements (`size = elems.length`), `dropped` the ghost log of destroyed
elements. -/
structure PQ (α : Type _) where
  alloc : Bool
  elems : List α
  cap : Nat
  dropped : List α

/-- pqueue.h:46-47 `_init`. -/
def init : PQ α := ⟨false, [], 0, []⟩

/-- pqueue.h:55-59 `_reserve`. `realloc(data, 0)` of an allocated block is undefined (C23) or
frees it while `data` is kept: modelled as undefined; `realloc(NULL, 0)` is taken to return
NULL. -/
def reserve (ok : Bool) (q : PQ α) (cap : Nat) : Option (PQ α × Bool) :=
  if cap ≠ q.elems.length ∧ cap ≤ q.cap then some (q, true)
  else if cap = 0 then (if q.alloc then none else some (q, false))
  else if ok then some ({ q with alloc := true, cap := cap }, true)
  else some (q, false)

/-- pqueue.h:61-62 `_shrink_to_fit`. -/
def shrinkToFit (ok : Bool) (q : PQ α) : Option (PQ α × Bool) := reserve ok q q.elems.length

/-- pqueue.h:135-143 `_sift_down_` on the first `n` slots; `r` is 1-based, the child index `c`
is always `2 * r` at the loop test. A call with `r = 0` would loop forever. The first argument
bounds the number of rounds (`n + 1` always suffices, see `siftDown_perm`). -/
def siftDownF (less : α → α → Bool) (n : Nat) : Nat → Nat → List α → Option (List α)
  | 0, _, _ => none
  | fuel + 1, r, l =>
    if r = 0 then none
    else if 2 * r ≤ n then
      match l[2 * r - 1]?, l[2 * r + (if 2 * r < n then 1 else 0) - 1]? with
      | some a, some b =>
        let c := 2 * r + (if less a b then 1 else 0)
        match l[r - 1]?, l[c - 1]? with
        | some x, some y =>
          if less x y then siftDownF less n fuel c ((l.set (r - 1) y).set (c - 1) x)
          else some l
        | _, _ => none
      | _, _ => none
    else some l

/-- pqueue.h:135-143 `_sift_down_`. -/
def siftDown (less : α → α → Bool) (n r : Nat) (l : List α) : Option (List α) :=
  siftDownF less n (n + 1) r l

/-- pqueue.h:145-150 `_make_heap`, the loop from `k` down to 1. -/
def heapifyFrom (less : α → α → Bool) (n : Nat) : Nat → List α → Option (List α)
  | 0, l => some l
  | k + 1, l => do
    let l ← siftDown less n (k + 1) l
    heapifyFrom less n k l

/-- pqueue.h:145-150 `_make_heap`. -/
def makeHeap (less : α → α → Bool) (q : PQ α) : Option (PQ α) := do
  let l ← heapifyFrom less q.elems.length (q.elems.length / 2) q.elems
  some { q with elems := l }

/-- pqueue.h:163-169 `_erase_at`. -/
def eraseAt (less : α → α → Bool) (q : PQ α) (idx : Nat) : Option (PQ α) := do
  let x ← q.elems[idx]?
  let n := q.elems.length - 1
  let y ← q.elems[n]?
  let l ← siftDown less n (idx + 1) ((q.elems.set idx y).take n)
  some { q with elems := l, dropped := q.dropped ++ [x] }

/-- pqueue.h:106-107 `_top`, read by the caller. -/
def top (q : PQ α) : Option α := q.elems[0]?

/-- pqueue.h:109-110 `_pop`. -/
def pop (less : α → α → Bool) (q : PQ α) : Option (PQ α) :=
  if q.elems.length = 0 then none else eraseAt less q 0

/-- pqueue.h:112-113 `_pull`. -/
def pull (less : α → α → Bool) (q : PQ α) : Option (PQ α × α) := do
  let v ← q.elems[0]?
  let q ← eraseAt less q 0
  some (q, v)

/-- pqueue.h:177-179, the loop of `_push`: `c` is the 1-based index of the hole; the first
argument bounds the number of rounds. -/
def siftUpF (less : α → α → Bool) (value : α) : Nat → Nat → List α → Option (List α)
  | 0, _, _ => none
  | fuel + 1, c, l =>
    if c > 1 then
      match l[c / 2 - 1]? with
      | some p =>
        if less p value then siftUpF less value fuel (c / 2) (l.set (c - 1) p)
        else some (l.set (c - 1) value)
      | none => none
    else some (l.set (c - 1) value)

/-- pqueue.h:177-179, the loop of `_push`. -/
def siftUp (less : α → α → Bool) (value : α) (c : Nat) (l : List α) : Option (List α) :=
  siftUpF less value c c l

/-- pqueue.h:173-174, the growth step of `_push`. -/
def grow (ok : Bool) (q : PQ α) : Option (PQ α × Bool) :=
  if q.elems.length = q.cap then reserve ok q (q.elems.length * 3 / 2 + 4) else some (q, true)

/-- pqueue.h:171-181 `_push`. The result of `_reserve` is ignored; storing into slot `size` is
undefined if there is no room. The yet uninitialised slot `size` (never read by the loop) is
represented by the value that will be stored. -/
def push (less : α → α → Bool) (ok : Bool) (q : PQ α) (value : α) : Option (PQ α) := do
  let (q, _) ← grow ok q
  if q.elems.length < q.cap then do
    let l ← siftUp less value (q.elems.length + 1) (q.elems ++ [value])
    some { q with elems := l }
  else none

/-- pqueue.h:75-78 `_clear`: destroys from the last to the first. -/
def clear (q : PQ α) : PQ α := { q with elems := [], dropped := q.dropped ++ q.elems.reverse }

/-- pqueue.h:80-84 `_drop`: the log of destroyed elements. -/
def drop (q : PQ α) : List α := (clear q).dropped

/-- pqueue.h:153-160 `_clone`: `_with_capacity(size)` (64-67), whose failure is not checked, then
a copy loop. -/
def clone (ok : Bool) (q : PQ α) : Option (PQ α) :=
  match reserve ok (init : PQ α) q.elems.length with
  | some (t, _) => if q.elems.length ≤ t.cap then some ⟨t.alloc, q.elems, t.cap, []⟩ else none
  | none => none

/-- One API call. `store i x` is a direct assignment `q.data[i] = x` by the caller (as done
before `_make_heap`), the old element passing to the caller. -/
inductive Op (α : Type _) where
  | push (ok : Bool) (x : α)
  | pop
  | eraseAt (i : Nat)
  | makeHeap
  | store (i : Nat) (x : α)
  | reserve (ok : Bool) (cap : Nat)
  | shrinkToFit (ok : Bool)
  | clear

/-- Execute one call; the reply is the element handed to the caller. -/
def step (less : α → α → Bool) (q : PQ α) : Op α → Option (PQ α × Option α)
  | .push ok x => do let q ← push less ok q x; some (q, none)
  | .pop => do let q ← pop less q; some (q, none)
  | .eraseAt i => do let q ← eraseAt less q i; some (q, none)
  | .makeHeap => do let q ← makeHeap less q; some (q, none)
  | .store i x => do
    let y ← q.elems[i]?
    some ({ q with elems := q.elems.set i x }, some y)
  | .reserve ok cap => do let (q, _) ← reserve ok q cap; some (q, none)
  | .shrinkToFit ok => do let (q, _) ← shrinkToFit ok q; some (q, none)
  | .clear => some (clear q, none)

end Verif.PQueue
