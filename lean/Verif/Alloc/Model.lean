import Verif.Alloc.Spec

/-! What the containers ask of the allocator. Each container is reduced to what decides its calls of
`i_malloc`, `i_calloc`, `i_realloc` and `i_free`: its pointers, capacity, number of elements and `aux`
member; elements are not represented (the component models treat them). Every call of the allocator is
answered by the environment: the `k`-th call made inside one API call gets the answer `as k`. The outcome
`none` means that the contract of `Spec.lean` was broken, or that `NULL` was dereferenced.

`es`, `ns`, `vs`, `ms` are sizes of element, node, entry and metadata types. -/

namespace Verif.Alloc

/-- The answers of the allocator to the calls made during one API call. -/
abbrev Answers := Nat → Ans

/-- A container type. `new a` is `{0}` or `{.aux = {a}}`, `make` is `X_with_capacity(n)`, `un` a call on one
variable, `out` a call that yields a second container, `bin` a call on two variables. -/
structure Kind where
  σ : Type
  Op : Type
  Op1 : Type
  Op2 : Type
  fp : σ → List Blk
  new : Nat → σ
  make : Answers → Mem → Nat → Option (Mem × σ)
  un : Answers → Mem → σ → Op → Option (Mem × σ)
  out : Answers → Mem → σ → Op1 → Option (Mem × σ × σ)
  bin : Answers → Mem → σ → σ → Op2 → Option (Mem × σ × σ)
  drop : Mem → σ → Option Mem
  take : Mem → σ → σ → Option (Mem × σ)

/-- A container with one block of `cap` elements: vec.h, stack.h and pqueue.h (types.h 205). -/
structure Buf where
  data : Option Nat
  size : Nat
  cap : Nat
  aux : Nat
deriving DecidableEq, Repr

namespace Buf

/-- The block of the container. -/
def fp (es : Nat) (v : Buf) : List Blk := blk v.data (v.cap * es) v.aux

/-- `{0}` with the `aux` member initialised. -/
def zero (a : Nat) : Buf := ⟨none, 0, 0, a⟩

/-- `_move` (stack.h 57-61, pqueue.h 86-90; vec.h likewise): `memset(self, 0, sizeof *self)` clears `aux`
as well. -/
def move (m : Mem) (v : Buf) : Mem × Buf × Buf := (m, zero 0, v)

/-- `realloc` to `n` elements as done by every `_reserve`: on failure nothing changes. -/
def regrow (es : Nat) (a : Ans) (m : Mem) (v : Buf) (n : Nat) : Option (Mem × Buf × Bool) :=
  (realloc a m v.aux v.data (v.cap * es) (n * es)).bind fun r =>
    if r.2.isSome then some (r.1, { v with data := r.2, cap := n }, true) else some (r.1, v, false)

/-- `i_free(self->data, self->capacity*c_sizeof(*self->data))` (stack.h 86, pqueue.h 83). -/
def free (es : Nat) (m : Mem) (v : Buf) : Option Mem := Alloc.free m v.aux v.data (v.cap * es)

end Buf

/-! ## vec -/

namespace Vec

/-- vec.h 289-300 `_reserve`. -/
def reserve (es : Nat) (a : Ans) (m : Mem) (v : Buf) (n : Nat) : Option (Mem × Buf × Bool) :=
  if n > v.cap ∨ (n ≠ 0 ∧ n = v.size) then Buf.regrow es a m v n else some (m, v, v.data.isSome)

/-- vec.h 316-325 `_insert_uninit`: the number of elements afterwards. -/
def insertUninit (es : Nat) (a : Ans) (m : Mem) (v : Buf) (n : Nat) : Option (Mem × Buf) :=
  if v.size + n ≥ v.cap then
    (reserve es a m v (v.size * 3 / 2 + n)).bind fun r =>
      if r.2.2 then some (r.1, { r.2.1 with size := r.2.1.size + n }) else some (r.1, r.2.1)
  else some (m, { v with size := v.size + n })

/-- Calls on a vec. `erase k` stands for all that only lower the size (pop, pull, erase_n). -/
inductive Op where
  | reserve (n : Nat)
  | push
  | insert (n : Nat)
  | resize (n : Nat)
  | shrink
  | erase (k : Nat)
  | clear

/-- vec.h 104-111, 181-183, 275-314. -/
def un (es : Nat) (as : Answers) (m : Mem) (v : Buf) : Op → Option (Mem × Buf)
  | .reserve n => (reserve es (as 0) m v n).map fun r => (r.1, r.2.1)
  | .push =>
    if v.size = v.cap then
      (reserve es (as 0) m v (v.size * 2 + 4)).bind fun r =>
        if r.2.2 then some (r.1, { r.2.1 with size := r.2.1.size + 1 }) else some (r.1, r.2.1)
    else some (m, { v with size := v.size + 1 })
  | .insert n => insertUninit es (as 0) m v n
  | .resize n =>
    (reserve es (as 0) m v n).bind fun r =>
      if r.2.2 then some (r.1, { r.2.1 with size := n }) else some (r.1, r.2.1)
  | .shrink => (reserve es (as 0) m v v.size).map fun r => (r.1, r.2.1)
  | .erase k => some (m, { v with size := v.size - k })
  | .clear => some (m, { v with size := 0 })

/-- vec.h 280-287 `_drop`. -/
def drop (es : Nat) (m : Mem) (v : Buf) : Option Mem := if v.cap = 0 then some m else Buf.free es m v

/-- Calls yielding a second vec. -/
inductive Op1 where
  | clone
  | move

/-- vec.h 144-149 `_clone` (the `aux` of the original is kept), `_move`. -/
def out (es : Nat) (as : Answers) (m : Mem) (v : Buf) : Op1 → Option (Mem × Buf × Buf)
  | .clone => (insertUninit es (as 0) m { v with data := none, size := 0, cap := 0 } v.size).map fun r => (r.1, v, r.2)
  | .move => some (Buf.move m v)

/-- vec.h 138-142 `_copy`. -/
def copy (es : Nat) (as : Answers) (m : Mem) (v w : Buf) : Option (Mem × Buf × Buf) :=
  if v.data = w.data then some (m, v, w)
  else (insertUninit es (as 0) m { v with size := 0 } w.size).map fun r => (r.1, r.2, w)

end Vec

/-- vec.h. -/
def vec (es : Nat) : Kind where
  σ := Buf
  Op := Vec.Op
  Op1 := Vec.Op1
  Op2 := Unit
  fp := Buf.fp es
  new := Buf.zero
  make as m n := (Vec.reserve es (as 0) m (Buf.zero 0) n).map fun r => (r.1, r.2.1)
  un := Vec.un es
  out := Vec.out es
  bin as m v w _ := Vec.copy es as m v w
  drop := Vec.drop es
  take m v w := (Vec.drop es m v).map fun m => (m, w)

/-! ## stack -/

namespace Stack

/-- stack.h 112-127 `_reserve`. -/
def reserve (es : Nat) (a : Ans) (m : Mem) (v : Buf) (n : Nat) : Option (Mem × Buf × Bool) :=
  if n > v.cap ∨ (n ≠ 0 ∧ n = v.size) then Buf.regrow es a m v n else some (m, v, v.data.isSome)

/-- Calls on a stack. `erase k` stands for all that only lower the size. -/
inductive Op where
  | reserve (n : Nat)
  | push
  | append (n : Nat)
  | shrink
  | erase (k : Nat)
  | clear

/-- stack.h 75-80, 129-140, 156-168. -/
def un (es : Nat) (as : Answers) (m : Mem) (v : Buf) : Op → Option (Mem × Buf)
  | .reserve n => (reserve es (as 0) m v n).map fun r => (r.1, r.2.1)
  | .push =>
    if v.size = v.cap then
      (reserve es (as 0) m v (v.size * 3 / 2 + 4)).bind fun r =>
        if r.2.2 then some (r.1, { r.2.1 with size := r.2.1.size + 1 }) else some (r.1, r.2.1)
    else some (m, { v with size := v.size + 1 })
  | .append n =>
    if v.size + n ≥ v.cap then
      (reserve es (as 0) m v (v.size * 3 / 2 + n)).bind fun r =>
        if r.2.2 then some (r.1, { r.2.1 with size := r.2.1.size + n }) else some (r.1, r.2.1)
    else some (m, { v with size := v.size + n })
  | .shrink => (reserve es (as 0) m v v.size).map fun r => (r.1, r.2.1)
  | .erase k => some (m, { v with size := v.size - k })
  | .clear => some (m, { v with size := 0 })

/-- stack.h 63-66 `_with_capacity`: the capacity is stored even if `malloc` fails. There is no `self` whose
`aux` the allocator could use. -/
def withCapacity (es : Nat) (a : Ans) (m : Mem) (n : Nat) : Mem × Buf :=
  ((malloc a m 0 (n * es)).1, ⟨(malloc a m 0 (n * es)).2, 0, n, 0⟩)

/-- stack.h 188-196 `_clone`: no `self` here either. -/
def clone (es : Nat) (a : Ans) (m : Mem) (v : Buf) : Mem × Buf :=
  ((malloc a m 0 (v.size * es)).1,
   { v with data := (malloc a m 0 (v.size * es)).2,
            cap := if (malloc a m 0 (v.size * es)).2.isSome then v.size else 0 })

/-- stack.h 57-61, 188-196. -/
def out (es : Nat) (as : Answers) (m : Mem) (v : Buf) : Vec.Op1 → Option (Mem × Buf × Buf)
  | .clone => some ((clone es (as 0) m v).1, v, (clone es (as 0) m v).2)
  | .move => some (Buf.move m v)

/-- stack.h 198-202 `_copy`. -/
def copy (es : Nat) (as : Answers) (m : Mem) (v w : Buf) : Option (Mem × Buf × Buf) :=
  if v.data = w.data then some (m, v, w)
  else (Buf.free es m v).map fun m => ((clone es (as 0) m w).1, (clone es (as 0) m w).2, w)

end Stack

/-- stack.h without `i_capacity`; `_drop` 82-88, `_take` 90-93. -/
def stack (es : Nat) : Kind where
  σ := Buf
  Op := Stack.Op
  Op1 := Vec.Op1
  Op2 := Unit
  fp := Buf.fp es
  new := Buf.zero
  make as m n := some (Stack.withCapacity es (as 0) m n)
  un := Stack.un es
  out := Stack.out es
  bin as m v w _ := Stack.copy es as m v w
  drop := Buf.free es
  take m v w := (Buf.free es m v).map fun m => (m, w)

/-! ## pqueue -/

namespace PQ

/-- pqueue.h 55-59 `_reserve`. -/
def reserve (es : Nat) (a : Ans) (m : Mem) (v : Buf) (n : Nat) : Option (Mem × Buf × Bool) :=
  if n ≠ v.size ∧ n ≤ v.cap then some (m, v, true) else Buf.regrow es a m v n

/-- Calls on a priority queue. `erase k` stands for `k` calls of pop, pull or erase_at. -/
inductive Op where
  | reserve (n : Nat)
  | push
  | shrink
  | erase (k : Nat)
  | clear

/-- pqueue.h 55-62, 75-78, 171-181. `_push` ignores the result of `_reserve`. -/
def un (es : Nat) (as : Answers) (m : Mem) (v : Buf) : Op → Option (Mem × Buf)
  | .reserve n => (reserve es (as 0) m v n).map fun r => (r.1, r.2.1)
  | .push =>
    if v.size = v.cap then
      (reserve es (as 0) m v (v.size * 3 / 2 + 4)).bind fun r =>
        if r.2.1.size < r.2.1.cap then some (r.1, { r.2.1 with size := r.2.1.size + 1 }) else none
    else some (m, { v with size := v.size + 1 })
  | .shrink => (reserve es (as 0) m v v.size).map fun r => (r.1, r.2.1)
  | .erase k => some (m, { v with size := v.size - k })
  | .clear => some (m, { v with size := 0 })

/-- pqueue.h 152-160 `_clone`: the block is allocated for a fresh `Self` whose `aux` is zero, then stored
in a copy of the original with its `aux`. -/
def clone (es : Nat) (a : Ans) (m : Mem) (v : Buf) : Option (Mem × Buf) :=
  (reserve es a m (Buf.zero 0) v.size).bind fun r =>
    if v.size ≤ r.2.1.cap then some (r.1, { v with data := r.2.1.data, cap := r.2.1.cap }) else none

/-- pqueue.h 86-90, 152-160. -/
def out (es : Nat) (as : Answers) (m : Mem) (v : Buf) : Vec.Op1 → Option (Mem × Buf × Buf)
  | .clone => (clone es (as 0) m v).map fun r => (r.1, v, r.2)
  | .move => some (Buf.move m v)

/-- pqueue.h 118-122 `_copy`. -/
def copy (es : Nat) (as : Answers) (m : Mem) (v w : Buf) : Option (Mem × Buf × Buf) :=
  if v.data = w.data then some (m, v, w)
  else (Buf.free es m v).bind fun m => (clone es (as 0) m w).map fun r => (r.1, r.2, w)

end PQ

/-- pqueue.h; `_drop` 80-84, `_take` 92-95, `_with_capacity` 64-67. -/
def pqueue (es : Nat) : Kind where
  σ := Buf
  Op := PQ.Op
  Op1 := Vec.Op1
  Op2 := Unit
  fp := Buf.fp es
  new := Buf.zero
  make as m n := (PQ.reserve es (as 0) m (Buf.zero 0) n).map fun r => (r.1, r.2.1)
  un := PQ.un es
  out := PQ.out es
  bin as m v w _ := PQ.copy es as m v w
  drop := Buf.free es
  take m v w := (Buf.free es m v).map fun m => (m, w)

/-! ## deque and queue -/

/-- types.h 113-120; only the number of elements of `start` and `end`. -/
structure Deq where
  cbuf : Option Nat
  size : Nat
  capmask : Nat
  aux : Nat
deriving DecidableEq, Repr

namespace Deq

/-- The ring buffer. -/
def fp (es : Nat) (q : Deq) : List Blk := blk q.cbuf ((q.capmask + 1) * es) q.aux

/-- `{0}` with the `aux` member initialised. -/
def zero (a : Nat) : Deq := ⟨none, 0, 0, a⟩

/-- queue_prv.h 186-208 `_reserve`; `np2` is `c_next_pow2`. -/
def reserve (es : Nat) (np2 : Nat → Nat) (a : Ans) (m : Mem) (q : Deq) (cap : Nat) : Option (Mem × Deq × Bool) :=
  if np2 (cap + 1) ≤ q.capmask + 1 then some (m, q, q.cbuf.isSome)
  else
    (realloc a m q.aux q.cbuf ((q.capmask + 1) * es) (np2 (cap + 1) * es)).bind fun r =>
      if r.2.isSome then some (r.1, { q with cbuf := r.2, capmask := np2 (cap + 1) - 1 }, true)
      else some (r.1, q, false)

/-- `i_free(self->cbuf, (self->capmask + 1)*c_sizeof(*self->cbuf))` (queue_prv.h 175, 233). -/
def free (es : Nat) (m : Mem) (q : Deq) : Option Mem := Alloc.free m q.aux q.cbuf ((q.capmask + 1) * es)

/-- Calls on a deque or queue. `push` is either end; `erase k` stands for all that only lower the size. -/
inductive Op where
  | reserve (n : Nat)
  | push
  | insert (n : Nat)
  | shrink
  | erase (k : Nat)
  | clear

/-- queue_prv.h 164-236, deque.h 132-171. `_shrink_to_fit` fills a fresh `Self`, whose `aux` is zero, and
assigns it to `*self`. -/
def un (es : Nat) (np2 : Nat → Nat) (as : Answers) (m : Mem) (q : Deq) : Op → Option (Mem × Deq)
  | .reserve n => (reserve es np2 (as 0) m q n).map fun r => (r.1, r.2.1)
  | .push =>
    if q.size = q.capmask then
      (reserve es np2 (as 0) m q (q.capmask + 3)).bind fun r =>
        if r.2.2 then some (r.1, { r.2.1 with size := r.2.1.size + 1 }) else some (r.1, r.2.1)
    else some (m, { q with size := q.size + 1 })
  | .insert n =>
    if q.size + n ≥ q.capmask then
      (reserve es np2 (as 0) m q (q.size + n)).bind fun r =>
        if r.2.2 then some (r.1, { r.2.1 with size := r.2.1.size + n }) else some (r.1, r.2.1)
    else some (m, { q with size := q.size + n })
  | .shrink =>
    if q.size > q.capmask / 2 then some (m, q)
    else
      (reserve es np2 (as 0) m (zero 0) q.size).bind fun r =>
        if r.2.1.cbuf.isSome then (free es r.1 q).map fun m => (m, { r.2.1 with size := q.size })
        else some (r.1, q)
  | .erase k => some (m, { q with size := q.size - k })
  | .clear => some (m, { q with size := 0 })

/-- queue_prv.h 238-252 `_clone`. -/
def clone (es : Nat) (np2 : Nat → Nat) (a : Ans) (m : Mem) (q : Deq) : Option (Mem × Deq) :=
  (reserve es np2 a m (zero 0) q.size).map fun r => (r.1, { q with cbuf := r.2.1.cbuf, capmask := r.2.1.capmask })

/-- queue_prv.h 92-96, 238-252. -/
def out (es : Nat) (np2 : Nat → Nat) (as : Answers) (m : Mem) (q : Deq) : Vec.Op1 → Option (Mem × Deq × Deq)
  | .clone => (clone es np2 (as 0) m q).map fun r => (r.1, q, r.2)
  | .move => some (m, zero 0, q)

/-- queue_prv.h 66-70 `_copy`. -/
def copy (es : Nat) (np2 : Nat → Nat) (as : Answers) (m : Mem) (v w : Deq) : Option (Mem × Deq × Deq) :=
  if v.cbuf = w.cbuf then some (m, v, w)
  else (free es m v).bind fun m => (clone es np2 (as 0) m w).map fun r => (r.1, r.2, w)

end Deq

/-- deque.h, queue.h. -/
def deque (es : Nat) (np2 : Nat → Nat) : Kind where
  σ := Deq
  Op := Deq.Op
  Op1 := Vec.Op1
  Op2 := Unit
  fp := Deq.fp es
  new := Deq.zero
  make as m n := (Deq.reserve es np2 (as 0) m (Deq.zero 0) n).map fun r => (r.1, r.2.1)
  un := Deq.un es np2
  out := Deq.out es np2
  bin as m v w _ := Deq.copy es np2 as m v w
  drop := Deq.free es
  take m v w := (Deq.free es m v).map fun m => (m, w)

/-! ## hmap and hset -/

/-- types.h 163-168. -/
structure Hm where
  table : Option Nat
  meta' : Option Nat
  size : Nat
  n : Nat
  aux : Nat
deriving DecidableEq, Repr

/-- Sizes and arithmetic of an instance of hmap.h: entry and metadata sizes, the number of buckets for a
capacity (454-455) and the limit at which an insertion grows the table (118). -/
structure HmPar where
  vs : Nat
  ms : Nat
  bucks : Nat → Nat
  limit : Nat → Nat

namespace Hm

/-- The table and the metadata with its end mark. -/
def fp (P : HmPar) (h : Hm) : List Blk := blk h.table (h.n * P.vs) h.aux ++ blk h.meta' ((h.n + 1) * P.ms) h.aux

/-- `{0}` with the `aux` member initialised. -/
def zero (a : Nat) : Hm := ⟨none, none, 0, 0, a⟩

/-- hmap.h 451-481 `_reserve`: the new table is a fresh `Self` (zero `aux`) allocated through
`self->aux`; `c_swap(self, &map)` exchanges the whole structures, so that `self->aux` is zero when the old
table is freed and afterwards. -/
def reserve (P : HmPar) (as : Answers) (m : Mem) (h : Hm) (cap : Nat) : Option (Mem × Hm × Bool) :=
  if cap < h.size ∨ P.bucks cap = h.n then some (m, h, true)
  else
    if (malloc (as 0) m h.aux (P.bucks cap * P.vs)).2.isSome ∧
       (malloc (as 1) (malloc (as 0) m h.aux (P.bucks cap * P.vs)).1 h.aux ((P.bucks cap + 1) * P.ms)).2.isSome then
      ((Alloc.free (malloc (as 1) (malloc (as 0) m h.aux (P.bucks cap * P.vs)).1 h.aux ((P.bucks cap + 1) * P.ms)).1
          0 h.meta' ((h.n + (if h.meta'.isSome then 1 else 0)) * P.ms)).bind fun m2 =>
        Alloc.free m2 0 h.table (h.n * P.vs)).map fun m3 =>
          (m3, ⟨(malloc (as 0) m h.aux (P.bucks cap * P.vs)).2,
                (malloc (as 1) (malloc (as 0) m h.aux (P.bucks cap * P.vs)).1 h.aux ((P.bucks cap + 1) * P.ms)).2,
                h.size, P.bucks cap, 0⟩, true)
    else
      ((Alloc.free (malloc (as 1) (malloc (as 0) m h.aux (P.bucks cap * P.vs)).1 h.aux ((P.bucks cap + 1) * P.ms)).1
          h.aux (malloc (as 1) (malloc (as 0) m h.aux (P.bucks cap * P.vs)).1 h.aux ((P.bucks cap + 1) * P.ms)).2
          ((P.bucks cap + (if (malloc (as 1) (malloc (as 0) m h.aux (P.bucks cap * P.vs)).1 h.aux
              ((P.bucks cap + 1) * P.ms)).2.isSome then 1 else 0)) * P.ms)).bind fun m2 =>
        Alloc.free m2 h.aux (malloc (as 0) m h.aux (P.bucks cap * P.vs)).2 (P.bucks cap * P.vs)).map fun m3 =>
          (m3, h, false)

/-- Calls on a map. `insert` is any call that reaches `_insert_entry_` with a new key; `erase k` stands for
`k` calls of erase. -/
inductive Op where
  | reserve (n : Nat)
  | insert
  | shrink
  | erase (k : Nat)
  | clear

/-- hmap.h 105, 116-125, 340-344, 483-502. -/
def un (P : HmPar) (as : Answers) (m : Mem) (h : Hm) : Op → Option (Mem × Hm)
  | .reserve n => (reserve P as m h n).map fun r => (r.1, r.2.1)
  | .insert =>
    if h.size ≥ P.limit h.n then
      (reserve P as m h (h.size * 3 / 2 + 2)).bind fun r =>
        if r.2.2 then some (r.1, { r.2.1 with size := r.2.1.size + 1 }) else some (r.1, r.2.1)
    else some (m, { h with size := h.size + 1 })
  | .shrink => (reserve P as m h h.size).map fun r => (r.1, r.2.1)
  | .erase k => some (m, { h with size := h.size - k })
  | .clear => some (m, { h with size := 0 })

/-- hmap.h 331-338 `_drop`. -/
def drop (P : HmPar) (m : Mem) (h : Hm) : Option Mem :=
  if h.n > 0 then
    (Alloc.free m h.aux h.meta' ((h.n + 1) * P.ms)).bind fun m => Alloc.free m h.aux h.table (h.n * P.vs)
  else some m

/-- hmap.h 427-449 `_clone`: the allocator is called without a `self`. -/
def clone (P : HmPar) (as : Answers) (m : Mem) (h : Hm) : Option (Mem × Hm) :=
  if h.n = 0 then some (m, h)
  else
    if (malloc (as 0) m 0 (h.n * P.vs)).2.isSome ∧
       (malloc (as 1) (malloc (as 0) m 0 (h.n * P.vs)).1 0 ((h.n + 1) * P.ms)).2.isSome then
      some ((malloc (as 1) (malloc (as 0) m 0 (h.n * P.vs)).1 0 ((h.n + 1) * P.ms)).1,
        { h with table := (malloc (as 0) m 0 (h.n * P.vs)).2,
                 meta' := (malloc (as 1) (malloc (as 0) m 0 (h.n * P.vs)).1 0 ((h.n + 1) * P.ms)).2 })
    else
      ((Alloc.free (malloc (as 1) (malloc (as 0) m 0 (h.n * P.vs)).1 0 ((h.n + 1) * P.ms)).1 0
          (malloc (as 0) m 0 (h.n * P.vs)).2 (h.n * P.vs)).bind fun m2 =>
        Alloc.free m2 0 (malloc (as 1) (malloc (as 0) m 0 (h.n * P.vs)).1 0 ((h.n + 1) * P.ms)).2
          ((h.n + 1) * P.ms)).map fun m3 => (m3, { h with table := none, meta' := none, n := 0 })

/-- hmap.h 180-184, 427-449. -/
def out (P : HmPar) (as : Answers) (m : Mem) (h : Hm) : Vec.Op1 → Option (Mem × Hm × Hm)
  | .clone => (clone P as m h).map fun r => (r.1, h, r.2)
  | .move => some (m, zero 0, h)

/-- hmap.h 144-149 `_copy`. -/
def copy (P : HmPar) (as : Answers) (m : Mem) (v w : Hm) : Option (Mem × Hm × Hm) :=
  if v.table = w.table then some (m, v, w)
  else (drop P m v).bind fun m => (clone P as m w).map fun r => (r.1, r.2, w)

end Hm

/-- hmap.h, hset.h; `_with_capacity` 315-319, `_take` 186-189. -/
def hmap (P : HmPar) : Kind where
  σ := Hm
  Op := Hm.Op
  Op1 := Vec.Op1
  Op2 := Unit
  fp := Hm.fp P
  new := Hm.zero
  make as m n := (Hm.reserve P as m (Hm.zero 0) n).map fun r => (r.1, r.2.1)
  un := Hm.un P
  out := Hm.out P
  bin as m v w _ := Hm.copy P as m v w
  drop := Hm.drop P
  take m v w := (Hm.drop P m v).map fun m => (m, w)

/-! ## smap and sset -/

/-- types.h 190-195; `free` is the number of nodes on the list headed by `disp`. -/
structure Sm where
  nodes : Option Nat
  head : Nat
  free : Nat
  size : Nat
  cap : Nat
  aux : Nat
deriving DecidableEq, Repr

namespace Sm

/-- The node array with the null node in front. -/
def fp (ns : Nat) (t : Sm) : List Blk := blk t.nodes ((t.cap + 1) * ns) t.aux

/-- `{0}` with the `aux` member initialised. -/
def zero (a : Nat) : Sm := ⟨none, 0, 0, 0, 0, a⟩

/-- smap.h 290-303 `_reserve`. -/
def reserve (ns : Nat) (a : Ans) (m : Mem) (t : Sm) (cap : Nat) : Option (Mem × Sm × Bool) :=
  if cap ≤ t.cap then some (m, t, false)
  else
    (realloc a m t.aux t.nodes ((t.cap + 1) * ns) ((cap + 1) * ns)).bind fun r =>
      if r.2.isSome then some (r.1, { t with nodes := r.2, cap := cap }, true) else some (r.1, t, false)

/-- smap.h 322-337 `_new_node_`. -/
def newNode (ns : Nat) (a : Ans) (m : Mem) (t : Sm) : Option (Mem × Sm × Bool) :=
  if t.free ≠ 0 then some (m, { t with free := t.free - 1 }, true)
  else if t.head = t.cap then
    (reserve ns a m t (t.head * 3 / 2 + 4)).map fun r =>
      if r.2.2 then (r.1, { r.2.1 with head := r.2.1.head + 1 }, true) else (r.1, r.2.1, false)
  else some (m, { t with head := t.head + 1 }, true)

/-- smap.h 590-596 `_drop`. -/
def drop (ns : Nat) (m : Mem) (t : Sm) : Option Mem :=
  if t.cap ≠ 0 then Alloc.free m t.aux t.nodes ((t.cap + 1) * ns) else some m

/-- smap.h 545-555 `_clone_r_` on a tree of `n` nodes: a node that cannot be allocated is written through
the null node of a missing array. -/
def cloneNodes (ns : Nat) (as : Answers) : Nat → Nat → Mem → Sm → Option (Mem × Sm)
  | 0, _, m, t => some (m, t)
  | n + 1, k, m, t =>
    (newNode ns (as k) m t).bind fun r => if r.2.2 then cloneNodes ns as n (k + 1) r.1 r.2.1 else none

/-- smap.h 557-565 `_clone`: the nodes are allocated for a fresh `Self` whose `aux` is zero; `head` keeps
the value of the original. -/
def clone (ns : Nat) (as : Answers) (m : Mem) (t : Sm) : Option (Mem × Sm) :=
  (reserve ns (as 0) m (zero 0) t.size).bind fun r =>
    (cloneNodes ns as t.size 1 r.1 r.2.1).map fun c =>
      (c.1, { t with nodes := c.2.nodes, free := c.2.free, cap := c.2.cap })

/-- Calls on a sorted map. `insert` is an insertion of a new key; `erase` one of a key that is there. -/
inductive Op where
  | reserve (n : Nat)
  | insert
  | erase
  | shrink
  | clear

/-- smap.h 133-134, 172-175, 290-337. `_clear` assigns `_init()`, whose `aux` is zero. -/
def un (ns : Nat) (as : Answers) (m : Mem) (t : Sm) : Op → Option (Mem × Sm)
  | .reserve n => (reserve ns (as 0) m t n).map fun r => (r.1, r.2.1)
  | .insert =>
    (newNode ns (as 0) m t).map fun r => if r.2.2 then (r.1, { r.2.1 with size := r.2.1.size + 1 }) else (r.1, r.2.1)
  | .erase => if t.size = 0 then some (m, t) else some (m, { t with size := t.size - 1, free := t.free + 1 })
  | .shrink => (clone ns as m t).bind fun r => (drop ns r.1 t).map fun m => (m, r.2)
  | .clear => (drop ns m t).map fun m => (m, zero 0)

/-- smap.h 147-151, 557-565. -/
def out (ns : Nat) (as : Answers) (m : Mem) (t : Sm) : Vec.Op1 → Option (Mem × Sm × Sm)
  | .clone => (clone ns as m t).map fun r => (r.1, t, r.2)
  | .move => some (m, zero 0, t)

/-- smap.h 165-170 `_copy`. -/
def copy (ns : Nat) (as : Answers) (m : Mem) (v w : Sm) : Option (Mem × Sm × Sm) :=
  if v.nodes = w.nodes then some (m, v, w)
  else (drop ns m v).bind fun m => (clone ns as m w).map fun r => (r.1, r.2, w)

end Sm

/-- smap.h, sset.h; `_with_capacity` 127-131, `_take` 153-156. -/
def smap (ns : Nat) : Kind where
  σ := Sm
  Op := Sm.Op
  Op1 := Vec.Op1
  Op2 := Unit
  fp := Sm.fp ns
  new := Sm.zero
  make as m n := (Sm.reserve ns (as 0) m (Sm.zero 0) n).map fun r => (r.1, r.2.1)
  un := Sm.un ns
  out := Sm.out ns
  bin as m v w _ := Sm.copy ns as m v w
  drop := Sm.drop ns
  take m v w := (Sm.drop ns m v).map fun m => (m, w)

/-! ## list -/

/-- types.h 131-140: the nodes from the first to the last. -/
structure Lst where
  nodes : List Nat
  aux : Nat
deriving DecidableEq, Repr

namespace Lst

/-- One block per node. -/
def fp (ns : Nat) (l : Lst) : List Blk := l.nodes.map fun i => ⟨i, ns, l.aux⟩

/-- `{0}` with the `aux` member initialised. -/
def zero (a : Nat) : Lst := ⟨[], a⟩

/-- list.h 73-75 `_c_list_insert_entry_after` and 244-249 `_push_back`: the result of `malloc` is used
without a check. -/
def push (ns : Nat) (a : Ans) (m : Mem) (l : Lst) : Option (Mem × Lst) :=
  (malloc a m l.aux ns).2.map fun i => ((malloc a m l.aux ns).1, { l with nodes := l.nodes ++ [i] })

/-- list.h 304-309 `_erase_after_node` on the node at position `k`. -/
def eraseAt (ns : Nat) (m : Mem) (l : Lst) (k : Nat) : Option (Mem × Lst) :=
  (l.nodes[k]?).bind fun i => (Alloc.free m l.aux (some i) ns).map fun m => (m, { l with nodes := l.nodes.eraseIdx k })

/-- list.h 238-242 `_drop`: nodes are freed from the first to the last. -/
def dropNodes (ns : Nat) (m : Mem) (aux : Nat) : List Nat → Option Mem
  | [] => some m
  | i :: l => (Alloc.free m aux (some i) ns).bind fun m => dropNodes ns m aux l

/-- list.h 238-242 `_drop`. -/
def drop (ns : Nat) (m : Mem) (l : Lst) : Option Mem := dropNodes ns m l.aux l.nodes

/-- list.h 398-406, the loop of `_sort` that copies `n` more elements into the array `arr` with room for
`cap`; `len` are copied. -/
def sortCopy (es : Nat) (as : Answers) (aux : Nat) :
    Nat → Nat → Mem → Option Nat → Nat → Nat → Option (Mem × Option Nat × Nat × Bool)
  | 0, _, m, arr, cap, _ => some (m, arr, cap, true)
  | n + 1, k, m, arr, cap, len =>
    if len = cap then
      (realloc (as k) m aux arr (cap * es) ((cap + cap / 2 + 8) * es)).bind fun r =>
        if r.2.isSome then sortCopy es as aux n (k + 1) r.1 r.2 (cap + cap / 2 + 8) (len + 1)
        else some (r.1, arr, cap, false)
    else sortCopy es as aux n k m arr cap (len + 1)

/-- list.h 394-415 `_sort`: the array of elements is freed at the end in any case. -/
def sort (es : Nat) (as : Answers) (m : Mem) (l : Lst) : Option (Mem × Lst) :=
  (sortCopy es as l.aux l.nodes.length 0 m none 0 0).bind fun r =>
    (Alloc.free r.1 l.aux r.2.1 (r.2.2.1 * es)).map fun m => (m, l)

/-- list.h 227-236 `_clone`, the loop: nodes are allocated for a fresh `Self`. -/
def cloneNodes (ns : Nat) (as : Answers) : Nat → Nat → Mem → Lst → Option (Mem × Lst)
  | 0, _, m, t => some (m, t)
  | n + 1, k, m, t => (push ns (as k) m t).bind fun r => cloneNodes ns as n (k + 1) r.1 r.2

/-- list.h 227-236 `_clone`. -/
def clone (ns : Nat) (as : Answers) (m : Mem) (l : Lst) : Option (Mem × Lst) :=
  (cloneNodes ns as l.nodes.length 0 m (zero 0)).map fun r => (r.1, { l with nodes := r.2.nodes })

/-- Calls on a list. The position of an insertion does not matter here. -/
inductive Op where
  | push
  | erase (k : Nat)
  | clear
  | reverse
  | sort

/-- list.h 153, 238-309, 321-331, 394-415. `_reverse` assigns a fresh `Self` to `*self`. -/
def un (ns es : Nat) (as : Answers) (m : Mem) (l : Lst) : Op → Option (Mem × Lst)
  | .push => push ns (as 0) m l
  | .erase k => if k < l.nodes.length then eraseAt ns m l k else some (m, l)
  | .clear => (drop ns m l).map fun m => (m, { l with nodes := [] })
  | .reverse => some (m, ⟨l.nodes.reverse, 0⟩)
  | .sort => sort es as m l

/-- Calls yielding a second list; `splitOff i n` takes `n` nodes from position `i`. -/
inductive Op1 where
  | clone
  | move
  | splitOff (i n : Nat)

/-- list.h 160-164, 227-236, 347-360. `_move` leaves `aux` alone; the list made by `_split_off` has a zero
`aux`. -/
def out (ns : Nat) (as : Answers) (m : Mem) (l : Lst) : Op1 → Option (Mem × Lst × Lst)
  | .clone => (clone ns as m l).map fun r => (r.1, l, r.2)
  | .move => some (m, { l with nodes := [] }, l)
  | .splitOff i n =>
    some (m, { l with nodes := l.nodes.take i ++ l.nodes.drop (i + n) }, ⟨(l.nodes.drop i).take n, 0⟩)

/-- Calls on two lists; `splice i`: all nodes of the second before position `i` of the first. -/
inductive Op2 where
  | copy
  | splice (i : Nat)

/-- list.h 123-127 `_copy`, 332-345 `_splice`. -/
def bin (ns : Nat) (as : Answers) (m : Mem) (v w : Lst) : Op2 → Option (Mem × Lst × Lst)
  | .copy =>
    if v.nodes.getLast? = w.nodes.getLast? then some (m, v, w)
    else (drop ns m v).bind fun m => (clone ns as m w).map fun r => (r.1, r.2, w)
  | .splice i => some (m, { v with nodes := v.nodes.take i ++ w.nodes ++ v.nodes.drop i }, { w with nodes := [] })

end Lst

/-- list.h; `_take` 166-169. There is no `_with_capacity`. -/
def list (ns es : Nat) : Kind where
  σ := Lst
  Op := Lst.Op
  Op1 := Lst.Op1
  Op2 := Lst.Op2
  fp := Lst.fp ns
  new := Lst.zero
  make _ m _ := some (m, Lst.zero 0)
  un := Lst.un ns es
  out := Lst.out ns
  bin := Lst.bin ns
  drop := Lst.drop ns
  take m v w := (Lst.drop ns m v).map fun m => (m, w)

/-! ## cstr -/

/-- cstr_prv.h 30-55: `lon` holds pointer and capacity of a long string. -/
structure Str where
  lon : Option (Option Nat × Nat)
  size : Nat
deriving DecidableEq, Repr

namespace Str

/-- cstr_prv.h 35 `cstr_s_cap` on a 64-bit machine. -/
def sCap : Nat := 22

/-- cstr_prv.h 86-89 `cstr_getbuf`: the capacity. -/
def cap (s : Str) : Nat :=
  match s.lon with
  | none => sCap
  | some l => l.2

/-- The buffer of a long string, with its terminator. -/
def fp (s : Str) : List Blk :=
  match s.lon with
  | none => []
  | some l => blk l.1 (l.2 + 1) 0

/-- cstr_prv.c 51-60 `_cstr_init`: the terminator is stored without a check for `NULL`. -/
def init (a : Ans) (m : Mem) (len c : Nat) : Option (Mem × Str) :=
  if c > sCap then
    if (malloc a m 0 (c + 1)).2.isSome then
      some ((malloc a m 0 (c + 1)).1, ⟨some ((malloc a m 0 (c + 1)).2, c), len⟩)
    else none
  else some (m, ⟨none, len⟩)

/-- cstr_prv.c 62-82 `cstr_reserve`; the flag is whether the returned pointer is not `NULL`. A failed
`realloc` loses the pointer to the old buffer. -/
def reserve (a : Ans) (m : Mem) (s : Str) (c : Nat) : Option (Mem × Str × Bool) :=
  match s.lon with
  | some l =>
    if c > l.2 then
      (realloc a m 0 l.1 (l.2 + 1) (c + 1)).map fun r => (r.1, { s with lon := some (r.2, c) }, r.2.isSome)
    else some (m, s, l.1.isSome)
  | none =>
    if c > sCap then
      if (malloc a m 0 (c + 1)).2.isSome then
        some ((malloc a m 0 (c + 1)).1, { s with lon := some ((malloc a m 0 (c + 1)).2, c) }, true)
      else none
    else some (m, s, true)

/-- cstr_prv.h 56 `cstr_l_drop`, 148-151 `cstr_drop`. -/
def drop (m : Mem) (s : Str) : Option Mem :=
  match s.lon with
  | none => some m
  | some l => Alloc.free m 0 l.1 (l.2 + 1)

/-- cstr_prv.c 102-106 `cstr_assign_n`. -/
def assign (a : Ans) (m : Mem) (s : Str) (len : Nat) : Option (Mem × Str) :=
  (reserve a m s len).map fun r => if r.2.2 then (r.1, { r.2.1 with size := len }) else (r.1, r.2.1)

/-- Calls on a string. `erase k` stands for all that only shorten it. -/
inductive Op where
  | reserve (n : Nat)
  | assign (len : Nat)
  | append (len : Nat)
  | resize (n : Nat)
  | erase (k : Nat)
  | shrink

/-- cstr_prv.c 84-93, 102-119, 136-155. -/
def un (as : Answers) (m : Mem) (s : Str) : Op → Option (Mem × Str)
  | .reserve n => (reserve (as 0) m s n).map fun r => (r.1, r.2.1)
  | .assign len => assign (as 0) m s len
  | .append len =>
    if s.size + len > s.cap then
      (reserve (as 0) m s (s.size * 3 / 2 + len)).map fun r =>
        if r.2.2 then (r.1, { r.2.1 with size := s.size + len }) else (r.1, r.2.1)
    else some (m, { s with size := s.size + len })
  | .resize n =>
    if n > s.size ∧ n > s.cap then
      (reserve (as 0) m s n).map fun r => if r.2.2 then (r.1, { r.2.1 with size := n }) else (r.1, r.2.1)
    else some (m, { s with size := n })
  | .erase k => some (m, { s with size := s.size - k })
  | .shrink =>
    match s.lon with
    | none => some (m, s)
    | some l =>
      if s.size = l.2 then some (m, s)
      else if s.size > sCap then
        (realloc (as 0) m 0 l.1 (l.2 + 1) (s.size + 1)).map fun r => (r.1, { s with lon := some (r.2, s.size) })
      else if l.2 > sCap then (Alloc.free m 0 l.1 (l.2 + 1)).map fun m => (m, ⟨none, s.size⟩)
      else some (m, s)

/-- cstr_prv.h 134-138 `cstr_move`, 140-143 `cstr_clone`. -/
def out (as : Answers) (m : Mem) (s : Str) : Vec.Op1 → Option (Mem × Str × Str)
  | .clone => (init (as 0) m s.size s.size).map fun r => (r.1, s, r.2)
  | .move => some (m, ⟨none, 0⟩, s)

/-- cstr_prv.h 127-132 `cstr_take`. The field `lon.data` of a short string holds text, here taken to
differ from any address. -/
def take (m : Mem) (s t : Str) : Option (Mem × Str) :=
  match s.lon with
  | none => some (m, t)
  | some l => if t.lon.bind (·.1) = l.1 then some (m, t) else (Alloc.free m 0 l.1 (l.2 + 1)).map fun m => (m, t)

end Str

/-- cstr.h; `cstr_copy` cstr_prv.h 350-353, `cstr_with_capacity` 121-125. -/
def cstr : Kind where
  σ := Str
  Op := Str.Op
  Op1 := Vec.Op1
  Op2 := Unit
  fp := Str.fp
  new _ := ⟨none, 0⟩
  make as m n := Str.init (as 0) m 0 n
  un := Str.un
  out := Str.out
  bin as m v w _ := (Str.assign (as 0) m v w.size).map fun r => (r.1, r.2, w)
  drop := Str.drop
  take := Str.take

/-! ## cbits -/

/-- cbits.h 155. -/
structure Bits where
  buffer : Option Nat
  size : Nat
deriving DecidableEq, Repr

namespace Bits

/-- cbits.h `_cbits_bytes`: whole words of 64 bits. -/
def bytes (n : Nat) : Nat := (n + 63) / 64 * 8

/-- The words of the bitset. -/
def fp (b : Bits) : List Blk := blk b.buffer (bytes b.size) 0

/-- cbits.h 158. -/
def drop (m : Mem) (b : Bits) : Option Mem := Alloc.free m 0 b.buffer (bytes b.size)

/-- cbits.h 209-219 `cbits_with_size`, `cbits_with_pattern`, and 169-173 `cbits_clone`: the words are
written without a check. -/
def withSize (a : Ans) (m : Mem) (n : Nat) : Option (Mem × Bits) :=
  if n ≠ 0 ∧ (malloc a m 0 (bytes n)).2 = none then none
  else some ((malloc a m 0 (bytes n)).1, ⟨(malloc a m 0 (bytes n)).2, n⟩)

/-- cbits.h 184-198 `cbits_resize`. -/
def resize (as : Answers) (m : Mem) (b : Bits) (n : Nat) : Option (Mem × Bits) :=
  (realloc (as 0) m 0 b.buffer (bytes b.size) (bytes n)).map fun r =>
    if r.2.isSome then (r.1, ⟨r.2, n⟩) else (r.1, b)

/-- cbits.h 161-167 `cbits_take`. -/
def take (m : Mem) (b c : Bits) : Option (Mem × Bits) :=
  if b.buffer ≠ c.buffer then (drop m b).map fun m => (m, c) else some (m, b)

/-- cbits.h 175-182 `cbits_copy`. -/
def copy (as : Answers) (m : Mem) (b c : Bits) : Option (Mem × Bits × Bits) :=
  if b.buffer = c.buffer then some (m, b, c)
  else if b.size ≠ c.size then
    (withSize (as 0) m c.size).bind fun r => (take r.1 b r.2).map fun q => (q.1, q.2, c)
  else some (m, b, c)

end Bits

/-- cbits.h, dynamic size; `cbits_move` 203-207. The only call on one variable that reaches the allocator
is `cbits_resize`. -/
def cbits : Kind where
  σ := Bits
  Op := Nat
  Op1 := Vec.Op1
  Op2 := Unit
  fp := Bits.fp
  new _ := ⟨none, 0⟩
  make as m n := Bits.withSize (as 0) m n
  un as m b n := Bits.resize as m b n
  out as m b o :=
    match o with
    | .clone => (Bits.withSize (as 0) m b.size).map fun r => (r.1, b, r.2)
    | .move => some (m, ⟨none, 0⟩, b)
  bin as m v w _ := Bits.copy as m v w
  drop := Bits.drop
  take := Bits.take

/-! ## cregex -/

/-- cregex.h: the program of a regular expression with its `allocsize` field (cregex_prv.c 78-86). -/
structure Rx where
  prog : Option Nat
  asz : Nat
deriving DecidableEq, Repr

/-- `cregex_compile` of a pattern of `len` bytes that yields `used` instructions, or fails. -/
structure RxOp where
  len : Nat
  used : Nat
  err : Bool
deriving DecidableEq, Repr

namespace Rx

/-- The memory of the program is the size stored in it. -/
def fp (r : Rx) : List Blk := blk r.prog r.asz 0

/-- cregex_prv.c 863-930 `_regcomp1` with the reallocation of `_optimize` (557-572); `S` and `I` are the
sizes of `_Reprog` and `_Reinst`. -/
def compile (S I : Nat) (as : Answers) (m : Mem) (r : Rx) (o : RxOp) : Option (Mem × Rx) :=
  (realloc (as 0) m 0 r.prog (if r.prog.isSome then r.asz else 0) (S + (5 + 6 * o.len) * I)).bind fun p =>
    if p.2 = none then some (p.1, ⟨none, 0⟩)
    else if o.err then (Alloc.free p.1 0 p.2 (S + (5 + 6 * o.len) * I)).map fun m => (m, ⟨none, 0⟩)
    else if o.used * 2 > 5 + 6 * o.len then some (p.1, ⟨p.2, S + (5 + 6 * o.len) * I⟩)
    else
      (realloc (as 1) p.1 0 p.2 (S + (5 + 6 * o.len) * I) (S + o.used * I)).bind fun q =>
        if q.2 = none ∨ q.2 = p.2 then some (q.1, ⟨p.2, S + (5 + 6 * o.len) * I⟩)
        else some (q.1, ⟨q.2, S + o.used * I⟩)

/-- cregex_prv.c 1339-1342 `cregex_drop`: `self->prog->allocsize` is read without a check. -/
def drop (m : Mem) (r : Rx) : Option Mem := if r.prog.isSome then Alloc.free m 0 r.prog r.asz else none

end Rx

/-- cregex.h; there is no move, clone or take of a regular expression. -/
def cregex (S I : Nat) : Kind where
  σ := Rx
  Op := RxOp
  Op1 := Empty
  Op2 := Empty
  fp := Rx.fp
  new _ := ⟨none, 0⟩
  make _ m _ := some (m, ⟨none, 0⟩)
  un := Rx.compile S I
  out _ _ _ o := nomatch o
  bin _ _ _ _ o := nomatch o
  drop := Rx.drop
  take m v w := (Rx.drop m v).map fun m => (m, w)

/-! ## Programs -/

/-- A program's variables: those out of scope or consumed are `none`. -/
structure World (K : Kind) where
  mem : Mem
  vars : List (Option K.σ)

/-- The start: no variable, no block. -/
def World.empty (K : Kind) : World K := ⟨⟨[], 0⟩, []⟩

/-- One statement. Variables are numbered in the order of their declaration. -/
inductive Act (K : Kind) where
  | new (aux : Nat)
  | mk (as : Answers) (n : Nat)
  | un (i : Nat) (as : Answers) (o : K.Op)
  | out (i : Nat) (as : Answers) (o : K.Op1)
  | bin (i j : Nat) (as : Answers) (o : K.Op2)
  | take (i j : Nat)
  | drop (i : Nat)

/-- The value of a variable that is in scope. -/
def World.get {K : Kind} (w : World K) (i : Nat) : Option K.σ := (w.vars[i]?).join

/-- Execute a statement; one that names a variable that is not in scope, or the same variable twice, is
not a program and is skipped. `take i j` consumes `j`. -/
def stepW {K : Kind} (w : World K) : Act K → Option (World K)
  | .new a => some ⟨w.mem, w.vars ++ [some (K.new a)]⟩
  | .mk as n => (K.make as w.mem n).map fun r => ⟨r.1, w.vars ++ [some r.2]⟩
  | .un i as o =>
    match w.get i with
    | none => some w
    | some s => (K.un as w.mem s o).map fun r => ⟨r.1, w.vars.set i (some r.2)⟩
  | .out i as o =>
    match w.get i with
    | none => some w
    | some s => (K.out as w.mem s o).map fun r => ⟨r.1, w.vars.set i (some r.2.1) ++ [some r.2.2]⟩
  | .bin i j as o =>
    match w.get i, w.get j with
    | some s, some t =>
      if i = j then some w
      else (K.bin as w.mem s t o).map fun r => ⟨r.1, (w.vars.set i (some r.2.1)).set j (some r.2.2)⟩
    | _, _ => some w
  | .take i j =>
    match w.get i, w.get j with
    | some s, some t =>
      if i = j then some w
      else (K.take w.mem s t).map fun r => ⟨r.1, (w.vars.set i (some r.2)).set j none⟩
    | _, _ => some w
  | .drop i =>
    match w.get i with
    | none => some w
    | some s => (K.drop w.mem s).map fun m => ⟨m, w.vars.set i none⟩

/-- Execute a program. -/
def run {K : Kind} : World K → List (Act K) → Option (World K)
  | w, [] => some w
  | w, a :: as => (stepW w a).bind fun w => run w as

end Verif.Alloc
