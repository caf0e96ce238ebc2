import Verif.Base
/-
Model of `vec` (include/stc/vec.h).

* `data` is `none` for the NULL pointer, otherwise the heap block.
* `cap` is the `capacity` field; that it equals the real block size is an invariant that
  is proved, not assumed.
* `dropped` is a ghost log of the elements passed to `i_keydrop`, in call order.
* Every function is in the `Option` monad; `none` = undefined behaviour or a failing
  `c_assert`.  Functions that allocate take `ok : Bool`, the outcome of the allocation.
* `i_keyfrom`/`i_keytoraw`/`i_keyclone` are the identity (element values are abstract).
-/
namespace Verif.Vec
variable {α : Type _}

/-- vec.h / types.h `_c_vec_types`: `struct { value* data; isize size, capacity; }`. -/
structure Vec (α : Type _) where
  data : Option (Buf α)
  size : Nat
  cap : Nat
  dropped : List α

/-- vec.h:90 `_init`, the zero-initialised struct. -/
def init : Vec α := ⟨none, 0, 0, []⟩

/-- Dereference `self->data`. A NULL pointer gives undefined behaviour. -/
def Vec.blk (v : Vec α) : Option (Buf α) := v.data

/-- vec.h:290-300 `_reserve`. -/
def reserve (ok : Bool) (v : Vec α) (cap : Nat) : Vec α × Bool :=
  if cap > v.cap ∨ (cap ≠ 0 ∧ cap = v.size) then
    if ok then
      ({ v with data := some ((v.data.getD []).realloc cap), cap := cap }, true)
    else (v, false)
  else (v, v.data.isSome)

/-- vec.h:104-111 `_push` (also `_emplace`, `_push_back`: vec.h:122-126, 165). Result:
`true` = pointer to the element, `false` = NULL. -/
def push (ok : Bool) (v : Vec α) (x : α) : Option (Vec α × Bool) :=
  let go (v : Vec α) : Option (Vec α × Bool) := do
    let b ← v.blk
    let b ← b.wr v.size x
    some ({ v with data := some b, size := v.size + 1 }, true)
  if v.size = v.cap then
    match reserve ok v (v.size * 2 + 4) with
    | (v', true) => go v'
    | (v', false) => some (v', false)
  else go v

/-- vec.h:113-114 `_put_n`; allocation outcomes are given per element. -/
def putN (v : Vec α) : List (α × Bool) → Option (Vec α)
  | [] => some v
  | (x, ok) :: xs => do
    let (v, _) ← push ok v x
    putN v xs

/-- vec.h:161-162 `_pop`. -/
def pop (v : Vec α) : Option (Vec α) := do
  guard (v.size ≠ 0)
  let b ← v.blk
  let (x, b) ← b.kill (v.size - 1)
  some { v with data := some b, size := v.size - 1, dropped := v.dropped ++ [x] }

/-- vec.h:163-164 `_pull`: the element is moved out to the caller. -/
def pull (v : Vec α) : Option (Vec α × α) := do
  guard (v.size ≠ 0)
  let b ← v.blk
  let (x, b) ← b.kill (v.size - 1)
  some ({ v with data := some b, size := v.size - 1 }, x)

/-- vec.h:205-211 `_at`, `_at_mut` (read through the pointer). -/
def at' (v : Vec α) (i : Nat) : Option α := do
  guard (i < v.size)
  let b ← v.blk
  b.rd i

/-- Write through the pointer returned by vec.h:209 `_at_mut`; the previous element is
overwritten without being destroyed. -/
def setAt (v : Vec α) (i : Nat) (x : α) : Option (Vec α) := do
  guard (i < v.size)
  let b ← v.blk
  let b ← b.wr i x
  some { v with data := some b }

/-- The loop `while (p-- != data) i_keydrop(p)` of vec.h:275-276 over the lowest `k` slots,
highest first. -/
def dropDown (b : Buf α) (log : List α) : Nat → Option (Buf α × List α)
  | 0 => some (b, log)
  | k + 1 => do
    let (x, b) ← b.kill k
    dropDown b (log ++ [x]) k

/-- The loop `for (i = 0; i < len; ++i, ++p) i_keydrop(p)` (vec.h:331-332, 307-308) over the
slots `i, i+1, ..` (`k` of them). -/
def dropUp (b : Buf α) (log : List α) (i : Nat) : Nat → Option (Buf α × List α)
  | 0 => some (b, log)
  | k + 1 => do
    let (x, b) ← b.kill i
    dropUp b (log ++ [x]) (i + 1) k

/-- vec.h:273-278 `_clear`. -/
def clear (v : Vec α) : Option (Vec α) :=
  if v.size = 0 then some v
  else do
    let b ← v.blk
    let (b, log) ← dropDown b v.dropped v.size
    some { v with data := some b, size := 0, dropped := log }

/-- vec.h:280-287 `_drop`: destroys the elements and frees the block. The struct itself is
dead afterwards; the model returns the ghost log only. -/
def drop (v : Vec α) : Option (List α) :=
  if v.cap = 0 then some v.dropped
  else do
    let v ← clear v
    some v.dropped

/-- vec.h:99-102 `_take`: drop self, then take over `unowned`. -/
def take (v w : Vec α) : Option (Vec α) := do
  let log ← drop v
  some { w with dropped := log ++ w.dropped }

/-- The loop `for (i = n; i < len; ++i) data[i] = null` of vec.h:309-310. -/
def fill (b : Buf α) (x : α) (i : Nat) : Nat → Option (Buf α)
  | 0 => some b
  | k + 1 => do
    let b ← b.wr i x
    fill b x (i + 1) k

/-- vec.h:302-313 `_resize`. -/
def resize (ok : Bool) (v : Vec α) (len : Nat) (null : α) : Option (Vec α × Bool) :=
  match reserve ok v len with
  | (v, false) => some (v, false)
  | (v, true) => do
    let n := v.size
    let b ← v.blk
    let (b, log) ← dropUp b v.dropped len (n - len)
    let b ← fill b null n (len - n)
    some ({ v with data := some b, size := len, dropped := log }, true)

/-- vec.h:315-325 `_insert_uninit`. Result `true` when the returned iterator is not NULL.
`idx ≤ size` is required by the subtraction `self->size - idx` passed to memmove. -/
def insertUninit (ok : Bool) (v : Vec α) (idx n : Nat) : Option (Vec α × Bool) :=
  let go (v : Vec α) : Option (Vec α × Bool) := do
    guard (idx ≤ v.size)
    let b ← v.blk
    let b ← b.move (idx + n) idx (v.size - idx)
    some ({ v with data := some b, size := v.size + n }, true)
  if v.size + n ≥ v.cap then
    match reserve ok v (v.size * 3 / 2 + n) with
    | (v', true) => go v'
    | (v', false) => some (v', false)
  else go v

/-- vec.h:185-191 `_insert_n` (and `_copy_n` vec.h:339-348, `_emplace_n` vec.h:351-359, which
fill the opened gap element by element with the same values). -/
def insertN (ok : Bool) (v : Vec α) (idx : Nat) (arr : List α) : Option (Vec α × Bool) := do
  let (v, r) ← insertUninit ok v idx arr.length
  if r then
    let b ← v.blk
    let b ← b.cpy idx arr
    some ({ v with data := some b }, true)
  else some (v, false)

/-- vec.h:327-336 `_erase_n`. The first component of the result is the index the returned
iterator refers to, `none` for NULL. -/
def eraseN (v : Vec α) (idx len : Nat) : Option (Vec α × Option Nat) := do
  guard (idx + len ≤ v.size)
  let b ← v.blk
  let (b, log) ← dropUp b v.dropped idx len
  let b ← b.move idx (idx + len) (v.size - (idx + len))
  some ({ v with data := some b, size := v.size - len, dropped := log },
    if idx + len = v.size then none else some idx)

/-- vec.h:181-183 `_shrink_to_fit`. -/
def shrinkToFit (ok : Bool) (v : Vec α) : Vec α := (reserve ok v v.size).1

/-- The loop of `_copy_n` (vec.h:339-348) reading `k` source elements from slot `i` on. -/
def readUp (b : Buf α) (i : Nat) : Nat → Option (List α)
  | 0 => some []
  | k + 1 => do
    let x ← b.rd i
    let xs ← readUp b (i + 1) k
    some (x :: xs)

/-- vec.h:144-149 `_clone` (with `i_keyclone` the identity on values). -/
def clone (ok : Bool) (v : Vec α) : Option (Vec α × Bool) := do
  let arr ← readUp (v.data.getD []) 0 v.size
  insertN ok init 0 arr

/-! ### Iteration -/

/-- `_c_vec_types` iterator `{ref, end}` as offsets from `data`; `ref = none` is NULL. -/
structure Iter where
  ref : Option Nat
  fin : Nat

/-- vec.h:215-219 `_begin`. -/
def begin (v : Vec α) : Iter :=
  if v.data.isSome then ⟨some 0, v.size⟩ else ⟨none, 0⟩

/-- vec.h:233-234 `_next`. -/
def next (it : Iter) : Iter :=
  match it.ref with
  | none => it
  | some r => if r + 1 = it.fin then { it with ref := none } else { it with ref := some (r + 1) }

/-- common.h:163-164 `c_each(it, C, cnt)` with a body that reads `*it.ref`; `none` when the
body performs an invalid read or the loop does not end within `fuel` rounds. -/
def eachFrom (v : Vec α) : Nat → Iter → Option (List α)
  | 0, it => if it.ref = none then some [] else none
  | fuel + 1, it =>
    match it.ref with
    | none => some []
    | some r => do
      let b ← v.blk
      let x ← b.rd r
      let xs ← eachFrom v fuel (next it)
      some (x :: xs)

/-- The whole loop `for (c_each(it, Vec, v))`. -/
def each (v : Vec α) (fuel : Nat) : Option (List α) := eachFrom v fuel (begin v)

/-- Reverse loop `c_each_reverse` (common.h:171-173) with vec.h:221-225 `_rbegin`, vec.h:236-237
`_rnext`: `ref` is an offset from `data` (possibly -1), the end mark is `data - 1`. `none` for an
invalid read or more than `fuel` rounds. -/
def revFrom (v : Vec α) : Nat → Option Int → Option (List α)
  | 0, r => if r = none then some [] else none
  | fuel + 1, r =>
    match r with
    | none => some []
    | some r => do
      let b ← v.blk
      let x ← if r < 0 then none else b.rd r.toNat
      let xs ← revFrom v fuel (if r - 1 = -1 then none else some (r - 1))
      some (x :: xs)

/-- The whole loop `for (c_each_reverse(it, Vec, v))`. -/
def eachReverse (v : Vec α) (fuel : Nat) : Option (List α) :=
  revFrom v fuel (if v.data.isSome then some ((v.size : Int) - 1) else none)

/-- vec.h:201-203 `_erase_range` with `_it2_ptr` (vec.h:66): iterators as indices, `none` =
end iterator (NULL ref). `i1.ref` must not be NULL. -/
def eraseRange (v : Vec α) (i1 : Nat) (i2 : Option Nat) : Option (Vec α × Option Nat) := do
  let e := i2.getD v.size
  guard (i1 ≤ e)
  eraseN v i1 (e - i1)

/-- vec.h:362-373 `_find_in` / vec.h:251 `_find` scanning indices `i .. size`. -/
def findFrom (v : Vec α) (eq : α → α → Bool) (raw : α) (i : Nat) : Nat → Option (Option Nat)
  | 0 => some none
  | k + 1 => do
    let b ← v.blk
    let x ← b.rd i
    if eq raw x then some (some i) else findFrom v eq raw (i + 1) k

/-- vec.h:251 `_find`: `begin` is NULL for a NULL `data`, then the loop is empty. -/
def find (v : Vec α) (eq : α → α → Bool) (raw : α) : Option (Option Nat) :=
  if v.data.isSome then findFrom v eq raw 0 v.size else some none

/-- vec.h:255-262 `_eq`: loop from index `i`, `k` rounds left. -/
def eqFrom (v w : Vec α) (eq : α → α → Bool) (i : Nat) : Nat → Option Bool
  | 0 => some true
  | k + 1 => do
    let b ← v.blk
    let c ← w.blk
    let x ← b.rd i
    let y ← c.rd i
    if eq x y then eqFrom v w eq (i + 1) k else some false

/-- vec.h:255-262 `_eq`. -/
def eq (v w : Vec α) (eq : α → α → Bool) : Option Bool :=
  if v.size ≠ w.size then some false else eqFrom v w eq 0 v.size

/-! ### Histories -/

/-- One API call on a vec; the `Bool`s are the allocation outcomes. -/
inductive Op (α : Type _) where
  | push (ok : Bool) (x : α)
  | pop
  | pull
  | insertN (ok : Bool) (idx : Nat) (arr : List α)
  | eraseN (idx n : Nat)
  | resize (ok : Bool) (len : Nat) (x : α)
  | reserve (ok : Bool) (cap : Nat)
  | shrinkToFit (ok : Bool)
  | clear
  | replace (i : Nat) (x : α)

/-- Reply of a call: whether it reported success, and the element handed to the caller. -/
structure Reply (α : Type _) where
  ok : Bool
  out : Option α

/-- Execute one call. -/
def step (v : Vec α) : Op α → Option (Vec α × Reply α)
  | .push ok x => do let (v, r) ← push ok v x; some (v, ⟨r, none⟩)
  | .pop => do let v ← pop v; some (v, ⟨true, none⟩)
  | .pull => do let (v, x) ← pull v; some (v, ⟨true, some x⟩)
  | .insertN ok idx arr => do let (v, r) ← insertN ok v idx arr; some (v, ⟨r, none⟩)
  | .eraseN idx n => do let (v, _) ← eraseN v idx n; some (v, ⟨true, none⟩)
  | .resize ok len x => do let (v, r) ← resize ok v len x; some (v, ⟨r, none⟩)
  | .reserve ok cap => let (v, r) := reserve ok v cap; some (v, ⟨r, none⟩)
  | .shrinkToFit ok => some (shrinkToFit ok v, ⟨true, none⟩)
  | .clear => do let v ← clear v; some (v, ⟨true, none⟩)
  -- the caller's `old = *at(i); *at_mut(i) = x;`
  | .replace i x => do let y ← at' v i; let v ← setAt v i x; some (v, ⟨true, some y⟩)

end Verif.Vec
