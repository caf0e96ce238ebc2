import Verif.Base
import Verif.Sort.Model
/-
Model of `include/stc/list.h`: the circular singly linked list.

All nodes of all lists live in one heap. A node address is a `Nat`; a list object is its `last`
pointer. A freed or never allocated address is a dead slot and every access to it is undefined
behaviour (`none`). The allocator may answer with any dead address, chosen by the caller of the
model (`malloc` below), so that addresses of freed nodes can come back.

Not modelled: `isize` overflow of counters (a list longer than 2^63 nodes), the byte sizes
handed to the allocator, `_aux` members and the raw/emplace conversions (`i_keyfrom` is applied
before the modelled function is entered).
-/
namespace Verif.Clist
variable {α : Type}

/-- `struct SELF##_node` (list.h 65-69). `next = none`: not initialised yet. -/
structure Cell (α : Type) where
  value : α
  next : Option Nat
deriving DecidableEq, Repr

/-- The heap of nodes. -/
abbrev Heap (α : Type) := Buf (Cell α)

/-- A list object `SELF` with the heap it lives in (types.h 137-140). -/
structure Lst (α : Type) where
  heap : Heap α
  last : Option Nat
deriving DecidableEq, Repr

/-- `SELF##_iter` (types.h 132-135): `ref`, `prev`, and `_last`, the address of the list object
(`none` is NULL). -/
structure Iter where
  ref : Option Nat
  home : Option Nat
  prev : Option Nat
deriving DecidableEq, Repr

/-- `node->next` as an rvalue. -/
def nxt (h : Heap α) (a : Nat) : Option Nat := (h.rd a).bind (·.next)

/-- `node->next = n`. -/
def setNext (h : Heap α) (a n : Nat) : Option (Heap α) := do
  let c ← h.rd a
  h.wr a { c with next := some n }

/-- The address the allocator returns: the wanted one if it is not in use, else a new one. -/
def fresh (h : Heap α) (want : Nat) : Nat := if (h.rd want).isNone then want else h.length

/-- The heap with a live node at address `a`. -/
def place (h : Heap α) (a : Nat) (c : Cell α) : Heap α :=
  (h ++ List.replicate (a + 1 - h.length) none).set a (some c)

/-- `_m_node *entry = _i_malloc(_m_node, 1); entry->value = val;` (list.h 73-74). `want = none`:
the allocation fails, and the store goes through a null pointer. -/
def newEntry (h : Heap α) (want : Option Nat) (v : α) : Option (Nat × Heap α) :=
  match want with
  | none => none
  | some w => some (fresh h w, place h (fresh h w) ⟨v, none⟩)

/-- `_c_list_insert_after_node(ref, entry)` (list.h 77-79). -/
def linkAfter (h : Heap α) (ref : Option Nat) (entry : Nat) : Option (Heap α) :=
  match ref with
  | some r => do
    let n ← nxt h r
    let h ← setNext h entry n
    setNext h r entry
  | none => setNext h entry entry

/-- `_push_back` (list.h 244-249). Returns the new node. -/
def pushBack (l : Lst α) (want : Option Nat) (v : α) : Option (Lst α × Nat) := do
  let (e, h) ← newEntry l.heap want v
  let h ← linkAfter h l.last e
  some (⟨h, some e⟩, e)

/-- `_push_front` (list.h 251-257). -/
def pushFront (l : Lst α) (want : Option Nat) (v : α) : Option (Lst α × Nat) := do
  let (e, h) ← newEntry l.heap want v
  let h ← linkAfter h l.last e
  some (⟨h, if l.last = none then some e else l.last⟩, e)

/-- `_push_back_node` (list.h 259-264). -/
def pushBackNode (l : Lst α) (node : Nat) : Option (Lst α) := do
  let h ← linkAfter l.heap l.last node
  some ⟨h, some node⟩

/-- `_insert_after_node` (list.h 266-272). -/
def insertAfterNode (l : Lst α) (ref : Option Nat) (node : Nat) : Option (Lst α) := do
  let h ← linkAfter l.heap ref node
  some ⟨h, if l.last = none then some node else l.last⟩

/-- `it.ref ? it.prev : self->last` (list.h 276, 337, 353). -/
def before (it : Iter) (last : Option Nat) : Option Nat := if it.ref.isSome then it.prev else last

/-- `_insert_at` (list.h 274-284). -/
def insertAt (l : Lst α) (it : Iter) (want : Option Nat) (v : α) : Option (Lst α × Iter) := do
  let node := before it l.last
  let (e, h) ← newEntry l.heap want v
  let h ← linkAfter h node e
  if l.last = none ∨ it.ref = none then
    some (⟨h, some e⟩, ⟨some e, it.home, if l.last.isSome then l.last else some e⟩)
  else some (⟨h, l.last⟩, ⟨some e, it.home, it.prev⟩)

/-- `_unlink_after_node` (list.h 311-320). Returns the unlinked node. -/
def unlinkAfter (l : Lst α) (ref : Option Nat) : Option (Lst α × Nat) := do
  let r ← ref
  let node ← nxt l.heap r
  let next ← nxt l.heap node
  let h ← setNext l.heap r next
  some (⟨h, if node = next then none else if l.last = some node then some r else l.last⟩, node)

/-- `_erase_after_node` (list.h 304-309): returns the destroyed value. -/
def eraseAfter (l : Lst α) (ref : Option Nat) : Option (Lst α × α) := do
  let (l, node) ← unlinkAfter l ref
  let (c, h) ← l.heap.kill node
  some (⟨h, l.last⟩, c.value)

/-- `_unlink_front_node` (list.h 117-118). -/
def unlinkFront (l : Lst α) : Option (Lst α × Nat) := unlinkAfter l l.last

/-- `_pop_front` (list.h 151-152). -/
def popFront (l : Lst α) : Option (Lst α × α) := do
  guard l.last.isSome
  eraseAfter l l.last

/-- The loop of `_drop` (list.h 239-242). -/
def dropLoop : Nat → Lst α → Option (Lst α × List α)
  | 0, _ => none
  | f + 1, l =>
    match l.last with
    | none => some (l, [])
    | some z => do
      let (l, x) ← eraseAfter l (some z)
      let (l, xs) ← dropLoop f l
      some (l, x :: xs)

/-- `_drop`, `_clear` (list.h 148, 239-242): the destroyed values in order. -/
def drop (l : Lst α) : Option (Lst α × List α) := dropLoop (l.heap.length + 1) l

/-! ### iterators -/

/-- `_begin` (list.h 179-183); `self` is the address of the list object. -/
def begin (self : Nat) (l : Lst α) : Option Iter :=
  match l.last with
  | none => some ⟨none, some self, none⟩
  | some z => do
    let n ← nxt l.heap z
    some ⟨some n, some self, some z⟩

/-- `_end` (list.h 185-187). -/
def «end» : Iter := ⟨none, none, none⟩

/-- The successor used by `_next` (list.h 191-192): NULL after the last node. -/
def nextAt (h : Heap α) (last : Option Nat) (node : Nat) : Option (Option Nat) :=
  if last = some node then some none else (nxt h node).map some

/-- `_next` (list.h 189-193); `obj` gives the contents of the list objects. -/
def next (h : Heap α) (obj : Nat → Option Nat) (it : Iter) : Option Iter := do
  let node ← it.ref
  let o ← it.home
  let r ← nextAt h (obj o) node
  some ⟨r, some o, some node⟩

/-- `_advance` (list.h 195-199). -/
def advance (h : Heap α) (obj : Nat → Option Nat) : Nat → Iter → Option Iter
  | 0, it => some it
  | n + 1, it =>
    if it.ref = none then some it
    else do
      let it ← next h obj it
      advance h obj n it

/-- `_count` (list.h 171-177), the loop. -/
def countLoop (h : Heap α) (z : Nat) : Nat → Nat → Nat → Option Nat
  | 0, _, _ => none
  | f + 1, node, n => do
    let node ← nxt h node
    if node = z then some n else countLoop h z f node (n + 1)

/-- `_count` (list.h 171-177). -/
def count (l : Lst α) : Option Nat :=
  match l.last with
  | none => some 0
  | some z => countLoop l.heap z (l.heap.length + 1) z 1

/-- `*_front` (list.h 153-154). -/
def front (l : Lst α) : Option α := do
  let z ← l.last
  let n ← nxt l.heap z
  (l.heap.rd n).map (·.value)

/-- `*_back` (list.h 155-156). -/
def back (l : Lst α) : Option α := do
  let z ← l.last
  (l.heap.rd z).map (·.value)

/-- The values visited by `for (c_each(it, Self, lst))` (common.h 164-165) from the node
`ref` on. -/
def eachLoop (h : Heap α) (last : Option Nat) : Nat → Option Nat → Option (List α)
  | _, none => some []
  | 0, some _ => none
  | f + 1, some a => do
    let c ← h.rd a
    let r ← nextAt h last a
    let vs ← eachLoop h last f r
    some (c.value :: vs)

/-- `c_each(it, Self, lst)` over a whole list. -/
def each (l : Lst α) : Option (List α) := do
  let it ← begin 0 l
  eachLoop l.heap l.last (l.heap.length + 1) it.ref

/-- `_find_in` (list.h 363-371): the loop; `stop` is `it2.ref`. -/
def findLoop {ρ : Type} (eq : α → ρ → Bool) (h : Heap α) (obj : Nat → Option Nat) (val : ρ)
    (stop : Option Nat) : Nat → Iter → Option (Option Iter)
  | 0, _ => none
  | f + 1, it =>
    if it.ref = stop then some none
    else do
      let a ← it.ref
      let c ← h.rd a
      if eq c.value val then some (some it)
      else do
        let it ← next h obj it
        findLoop eq h obj val stop f it

/-- `_find_in` (list.h 363-371). -/
def findIn {ρ : Type} (eq : α → ρ → Bool) (h : Heap α) (obj : Nat → Option Nat) (it1 it2 : Iter)
    (val : ρ) : Option Iter := do
  let r ← findLoop eq h obj val it2.ref (h.length + 1) it1
  match r with
  | some it => some it
  | none => some { it2 with ref := none }

/-- `_find` (list.h 209-212). -/
def find {ρ : Type} (eq : α → ρ → Bool) (self : Nat) (h : Heap α) (obj : Nat → Option Nat) (val : ρ) :
    Option Iter := do
  let b ← begin self ⟨h, obj self⟩
  findIn eq h obj b «end» val

/-- The loop of `_eq` (list.h 214-221), from the nodes `i` and `j`. -/
def eqLoop (eq : α → α → Bool) (h : Heap α) (l1 l2 : Option Nat) :
    Nat → Option Nat → Option Nat → Option Bool
  | _, none, none => some true
  | _, none, some _ => some false
  | _, some _, none => some false
  | 0, some _, some _ => none
  | f + 1, some a, some b => do
    let x ← h.rd a
    let y ← h.rd b
    if eq x.value y.value then do
      let a ← nextAt h l1 a
      let b ← nextAt h l2 b
      eqLoop eq h l1 l2 f a b
    else some false

/-- `_eq` (list.h 214-221). -/
def eq (eq : α → α → Bool) (h : Heap α) (l1 l2 : Option Nat) : Option Bool := do
  let i ← begin 0 ⟨h, l1⟩
  let j ← begin 0 ⟨h, l2⟩
  eqLoop eq h l1 l2 (h.length + 1) i.ref j.ref

/-! ### erasing and relinking -/

/-- `_erase_at` (list.h 286-292): new list, destroyed value, iterator after it. -/
def eraseAt (l : Lst α) (it : Iter) : Option (Lst α × α × Iter) := do
  let node ← it.ref
  let r ← nextAt l.heap l.last node
  let (l, x) ← eraseAfter l it.prev
  some (l, x, { it with ref := r })

/-- The `do ... while` of `_erase_range` (list.h 297-300). -/
def eraseRangeLoop («end» : Nat) (prev : Option Nat) : Nat → Lst α → Option (Lst α × List α)
  | 0, _ => none
  | f + 1, l => do
    let (l, x) ← eraseAfter l prev
    if l.last = none then some (l, [x])
    else do
      let p ← prev
      let n ← nxt l.heap p
      if n ≠ «end» then do
        let (l, xs) ← eraseRangeLoop «end» prev f l
        some (l, x :: xs)
      else some (l, [x])

/-- `it2.ref ? _clist_tonode(it2.ref) : self->last->next` (list.h 296). -/
def stopAt (l : Lst α) (it2 : Iter) : Option Nat :=
  match it2.ref with
  | some n => some n
  | none => l.last.bind (nxt l.heap)

/-- `_erase_range` (list.h 294-302): list, destroyed values, iterator. -/
def eraseRange (l : Lst α) (it1 it2 : Iter) : Option (Lst α × List α × Iter) := do
  let e ← stopAt l it2
  if it1.ref ≠ it2.ref then do
    let (l, xs) ← eraseRangeLoop e it1.prev (l.heap.length + 1) l
    some (l, xs, it2)
  else some (l, [], it2)

/-- The loop of `_reverse` (list.h 324-328). -/
def reverseLoop : Nat → Lst α → Option Nat → Option (Lst α)
  | 0, _, _ => none
  | f + 1, l, rev =>
    match l.last with
    | none => some ⟨l.heap, rev⟩
    | some _ => do
      let (l, node) ← unlinkAfter l l.last
      let r ← insertAfterNode ⟨l.heap, rev⟩ rev node
      reverseLoop f ⟨r.heap, l.last⟩ r.last

/-- `_reverse` (list.h 322-330). -/
def reverse (l : Lst α) : Option (Lst α) := reverseLoop (l.heap.length + 1) l none

/-- `_splice` (list.h 332-345): heap, the `last` fields of `self` and `other`, iterator. -/
def splice (h : Heap α) (self : Option Nat) (it : Iter) (other : Option Nat) :
    Option (Heap α × Option Nat × Option Nat × Iter) :=
  match self, other with
  | none, _ => some (h, other, none, it)
  | some _, none => some (h, self, none, it)
  | some z, some w => do
    let p ← before it (some z)
    let next ← nxt h p
    let wn ← nxt h w
    let h ← setNext h p wn
    let h ← setNext h w next
    some (h, if it.ref = none then some w else self, none, { it with prev := some w })

/-- `_split_off` (list.h 347-360): the changed list and the `last` field of the result. -/
def splitOff (l : Lst α) (it1 it2 : Iter) : Option (Lst α × Option Nat) :=
  if it1.ref = it2.ref then some (l, none)
  else do
    let p1 ← it1.prev
    let p2 ← before it2 l.last
    let n ← nxt l.heap p2
    let h ← setNext l.heap p1 n
    let r ← it1.ref
    let h ← setNext h p2 r
    some (⟨h, if l.last = some p2 then (if p1 = p2 then none else some p1) else l.last⟩, some p2)

/-- `_splice_range` (list.h 201-206). -/
def spliceRange (h : Heap α) (self : Option Nat) (it : Iter) (other : Option Nat) (it1 it2 : Iter) :
    Option (Heap α × Option Nat × Option Nat × Iter) := do
  let (o, tmp) ← splitOff ⟨h, other⟩ it1 it2
  let (h, self, _, it) ← splice o.heap self it tmp
  some (h, self, o.last, it)

/-- The `do ... while` of `_remove` (list.h 377-386). -/
def removeLoop {ρ : Type} (eq : α → ρ → Bool) (val : ρ) :
    Nat → Lst α → Nat → Nat → Option (Lst α × Nat × List α)
  | 0, _, _, _ => none
  | f + 1, l, prev, n => do
    let node ← nxt l.heap prev
    let c ← l.heap.rd node
    if eq c.value val then do
      let (l, x) ← eraseAfter l (some prev)
      if l.last = none then some (l, n + 1, [x])
      else if l.last = some node then some (l, n + 1, [x])
      else do
        let (l, n, xs) ← removeLoop eq val f l prev (n + 1)
        some (l, n, x :: xs)
    else if l.last = some node then some (l, n, [])
    else removeLoop eq val f l node n

/-- `_remove` (list.h 373-388): new list, number removed, destroyed values. -/
def remove {ρ : Type} (eq : α → ρ → Bool) (l : Lst α) (val : ρ) : Option (Lst α × Nat × List α) :=
  match l.last with
  | none => some (l, 0, [])
  | some prev => removeLoop eq val (2 * l.heap.length + 2) l prev 0

/-! ### sorting -/

/-- The first loop of `_sort` (list.h 398-406): copies the values from node `ref` on to the
buffer `arr` with capacity `cap`; `ok k` is the outcome of the `k`-th `realloc`. The inner
`none` is `goto done` with `p == NULL`. -/
def gather (ok : Nat → Bool) (h : Heap α) (last : Option Nat) :
    Nat → Option Nat → Nat → List α → Nat → Option (Option (List α))
  | _, none, _, arr, _ => some (some arr)
  | 0, some _, _, _, _ => none
  | f + 1, some a, k, arr, cap =>
    if arr.length = cap then
      if ok k then do
        let c ← h.rd a
        let r ← nextAt h last a
        gather ok h last f r (k + 1) (arr ++ [c.value]) (cap + cap / 2 + 8)
      else some none
    else do
      guard (arr.length < cap)
      let c ← h.rd a
      let r ← nextAt h last a
      gather ok h last f r k (arr ++ [c.value]) cap

/-- The second loop of `_sort` (list.h 411-412): `*i.ref = *p++`. -/
def scatter (last : Option Nat) : Nat → Heap α → Option Nat → List α → Option (Heap α)
  | _, h, none, _ => some h
  | 0, _, some _, _ => none
  | _ + 1, _, some _, [] => none
  | f + 1, h, some a, x :: xs => do
    let c ← h.rd a
    let h ← h.wr a { c with value := x }
    let r ← nextAt h last a
    scatter last f h r xs

/-- `_sort` (list.h 394-415) with `_sort_lowhigh` of sort_prv.h on the buffer. `p` is NULL at
the end if a `realloc` failed or if there was nothing to copy. -/
def sort (less : α → α → Bool) (ok : Nat → Bool) (l : Lst α) : Option (Lst α × Bool) := do
  let b ← begin 0 l
  let g ← gather ok l.heap l.last (l.heap.length + 1) b.ref 0 [] 0
  match g with
  | none => some (l, false)
  | some arr => do
    let arr' ← Sort.sort less arr
    let h ← scatter l.last (l.heap.length + 1) l.heap b.ref arr'
    some (⟨h, l.last⟩, b.ref.isSome)

/-! ### cloning -/

/-- The loop of `_clone` (list.h 230-232), from node `ref` on; `tmp` is the new list, `want k`
the answer of the allocator to the `k`-th call, `cl` is `i_keyclone`. -/
def cloneLoop (cl : α → α) (want : Nat → Option Nat) (last : Option Nat) :
    Nat → Lst α → Option Nat → Nat → Option (Lst α)
  | _, tmp, none, _ => some tmp
  | 0, _, some _, _ => none
  | f + 1, tmp, some a, k => do
    let c ← tmp.heap.rd a
    let (tmp, _) ← pushBack tmp (want k) (cl c.value)
    let r ← nextAt tmp.heap last a
    cloneLoop cl want last f tmp r (k + 1)

/-- `_clone` (list.h 228-235): heap and `last` of the result. -/
def clone (cl : α → α) (want : Nat → Option Nat) (l : Lst α) : Option (Lst α) := do
  let b ← begin 0 l
  cloneLoop cl want l.last (l.heap.length + 1) ⟨l.heap, none⟩ b.ref 0

/-- `_copy` (list.h 123-127): new heap, new `last` of `self`, destroyed values. -/
def copy (cl : α → α) (want : Nat → Option Nat) (l : Lst α) (other : Option Nat) :
    Option (Lst α × List α) :=
  if l.last = other then some (l, [])
  else do
    let (l, xs) ← drop l
    let c ← clone cl want ⟨l.heap, other⟩
    some (c, xs)

/-- `_put_n` (list.h 142-143). -/
def putN (want : Nat → Option Nat) : Nat → Lst α → List α → Option (Lst α)
  | _, l, [] => some l
  | k, l, x :: xs => do
    let (l, _) ← pushBack l (want k) x
    putN want (k + 1) l xs

end Verif.Clist

/-! ### calls on list objects

A program holds any number of list objects, named by numbers, whose nodes live in one heap. -/
namespace Verif.Clist
variable {α : Type}

/-- Point update. -/
def upd {β : Type} (f : Nat → β) (s : Nat) (x : β) : Nat → β := fun t => if t = s then x else f t

/-- The heap and the `last` member of every list object. -/
structure Mem (α : Type) where
  heap : Heap α
  last : Nat → Option Nat

/-- All list objects zero initialised (`_init`, list.h 141). -/
def Mem.init : Mem α := ⟨[], fun _ => none⟩

/-- List object `s`. -/
def Mem.lst (m : Mem α) (s : Nat) : Lst α := ⟨m.heap, m.last s⟩

/-- Store list object `s`. -/
def Mem.put (m : Mem α) (s : Nat) (l : Lst α) : Mem α := ⟨l.heap, upd m.last s l.last⟩

/-- The iterator `advance(begin(&s), k)` (list.h 179-199). -/
def seat (m : Mem α) (s k : Nat) : Option Iter := do
  let b ← begin s (m.lst s)
  advance m.heap m.last k b

/-- The element functions: `i_eq`, `i_less`, `i_keyclone`. -/
structure Fns (α : Type) where
  eq : α → α → Bool
  less : α → α → Bool
  cl : α → α

/-- Calls. Positions stand for iterators made by `begin` and `advance`; `want` is the answer of
the allocator. -/
inductive Op (α : Type) where
  | pushBack (s : Nat) (want : Option Nat) (v : α)
  | pushFront (s : Nat) (want : Option Nat) (v : α)
  | putN (s : Nat) (want : Nat → Option Nat) (vs : List α)
  | popFront (s : Nat)
  | insertAt (s k : Nat) (want : Option Nat) (v : α)
  | insertEnd (s : Nat) (want : Option Nat) (v : α)
  | eraseAt (s k : Nat)
  | eraseRange (s k n : Nat)
  | eraseToEnd (s k : Nat)
  | splice (s k t : Nat)
  | spliceRange (s k t i n : Nat)
  | splitOff (s i n t : Nat)
  | moveNode (s k t : Nat)
  | reverse (s : Nat)
  | remove (s : Nat) (v : α)
  | eraseIf (s : Nat) (p : α → Bool)
  | sort (s : Nat) (ok : Nat → Bool)
  | copy (s t : Nat) (want : Nat → Option Nat)
  | move (s t : Nat)
  | clear (s : Nat)

/-- What a call reports: destroyed elements in order, a count, a flag. -/
structure Reply (α : Type) where
  dropped : List α
  n : Nat
  ok : Bool

/-- `take(&t, unowned)` (list.h 166-169). -/
def take (m : Mem α) (t : Nat) (unowned : Option Nat) : Option (Mem α × List α) := do
  let (l, xs) ← drop (m.lst t)
  some (m.put t ⟨l.heap, unowned⟩, xs)

/-- The loop of `c_erase_if(C, &s, pred)` (sys/utility.h 77-84): the destroyed values in order. -/
def eraseIfLoop (p : α → Bool) (s : Nat) : Nat → Mem α → Iter → Option (Mem α × List α)
  | 0, _, _ => none
  | f + 1, m, it =>
    match it.ref with
    | none => some (m, [])
    | some a => do
      let c ← Buf.rd m.heap a
      if p c.value then do
        let (l, x, it) ← eraseAt (m.lst s) it
        let (m, xs) ← eraseIfLoop p s f (m.put s l) it
        some (m, x :: xs)
      else do
        let it ← next m.heap m.last it
        eraseIfLoop p s f m it

/-- `c_erase_if` (sys/utility.h 77-84). -/
def eraseIf (p : α → Bool) (m : Mem α) (s : Nat) : Option (Mem α × List α) := do
  let b ← begin s (m.lst s)
  eraseIfLoop p s (m.heap.length + 1) m b

/-- One call. -/
def run (F : Fns α) (m : Mem α) : Op α → Option (Mem α × Reply α)
  | .pushBack s w v => do
    let (l, _) ← Clist.pushBack (m.lst s) w v
    some (m.put s l, ⟨[], 0, true⟩)
  | .pushFront s w v => do
    let (l, _) ← Clist.pushFront (m.lst s) w v
    some (m.put s l, ⟨[], 0, true⟩)
  | .putN s w vs => do
    let l ← Clist.putN w 0 (m.lst s) vs
    some (m.put s l, ⟨[], 0, true⟩)
  | .popFront s => do
    let (l, x) ← Clist.popFront (m.lst s)
    some (m.put s l, ⟨[x], 0, true⟩)
  | .insertAt s k w v => do
    let it ← seat m s k
    let (l, _) ← Clist.insertAt (m.lst s) it w v
    some (m.put s l, ⟨[], 0, true⟩)
  | .insertEnd s w v => do
    let (l, _) ← Clist.insertAt (m.lst s) «end» w v
    some (m.put s l, ⟨[], 0, true⟩)
  | .eraseAt s k => do
    let it ← seat m s k
    let (l, x, _) ← Clist.eraseAt (m.lst s) it
    some (m.put s l, ⟨[x], 0, true⟩)
  | .eraseRange s k n => do
    let it1 ← seat m s k
    let it2 ← seat m s (k + n)
    let (l, xs, _) ← Clist.eraseRange (m.lst s) it1 it2
    some (m.put s l, ⟨xs, 0, true⟩)
  | .eraseToEnd s k => do
    let it1 ← seat m s k
    let (l, xs, _) ← Clist.eraseRange (m.lst s) it1 «end»
    some (m.put s l, ⟨xs, 0, true⟩)
  | .splice s k t => do
    let it ← seat m s k
    let (h, self, other, _) ← Clist.splice m.heap (m.last s) it (m.last t)
    some ((m.put s ⟨h, self⟩).put t ⟨h, other⟩, ⟨[], 0, true⟩)
  | .spliceRange s k t i n => do
    let it ← seat m s k
    let it1 ← seat m t i
    let it2 ← seat m t (i + n)
    let (h, self, other, _) ← Clist.spliceRange m.heap (m.last s) it (m.last t) it1 it2
    some ((m.put s ⟨h, self⟩).put t ⟨h, other⟩, ⟨[], 0, true⟩)
  | .splitOff s i n t => do
    let it1 ← seat m s i
    let it2 ← seat m s (i + n)
    let (l, r) ← Clist.splitOff (m.lst s) it1 it2
    let (m, xs) ← take (m.put s l) t r
    some (m, ⟨xs, 0, true⟩)
  | .moveNode s k t => do
    let it ← seat m s k
    let (l, node) ← unlinkAfter (m.lst s) it.prev
    let m := m.put s l
    let l ← pushBackNode (m.lst t) node
    some (m.put t l, ⟨[], 0, true⟩)
  | .reverse s => do
    let l ← Clist.reverse (m.lst s)
    some (m.put s l, ⟨[], 0, true⟩)
  | .remove s v => do
    let (l, n, xs) ← Clist.remove F.eq (m.lst s) v
    some (m.put s l, ⟨xs, n, true⟩)
  | .eraseIf s p => do
    let (m, xs) ← Clist.eraseIf p m s
    some (m, ⟨xs, 0, true⟩)
  | .sort s ok => do
    let (l, b) ← Clist.sort F.less ok (m.lst s)
    some (m.put s l, ⟨[], 0, b⟩)
  | .copy s t w => do
    let (l, xs) ← Clist.copy F.cl w (m.lst s) (m.last t)
    some (m.put s l, ⟨xs, 0, true⟩)
  | .move s t => do
    let (m, xs) ← take (m.put s ⟨m.heap, none⟩) t (m.last s)
    some (m, ⟨xs, 0, true⟩)
  | .clear s => do
    let (l, xs) ← drop (m.lst s)
    some (m.put s l, ⟨xs, 0, true⟩)

end Verif.Clist
