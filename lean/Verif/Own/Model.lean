/-
Model of container variables and the calls that pass ownership between them: `_init`, `_clone`, `_copy`, `_move`,
`_take`, `_clear`, `_drop` and `c_swap`, for the containers whose struct points to one block of elements: vec (vec.h
88-150, 270-287, 315-348), stack without fixed capacity (stack.h 49-93, 187-202), deque and queue (priv/queue_prv.h
61-100, 237-250), pqueue (pqueue.h 74-95, 115-122, 153-160), hmap and hset (hmap.h 143-149, 186-195, 428-450), smap
and sset (smap.h 147-170, 546-565). What the calls do inside of one container is modelled in the directories of the
containers; here a block is its capacity and the sequence of elements it holds, and every element is an object with an
identity of its own, so that a destructor call names the object it destroys.

A list is a chain of nodes instead of a block and is modelled with several lists at once in Clist. The fixed-capacity
stack, whose elements are inside of the variable, is modelled at the end.
-/
namespace Verif.Own
variable {ν : Type}

/-- A block (types.h `_c_vec_types`): its capacity and the objects in it, with identity and value. -/
structure Blk (ν : Type) where
  cap : Nat
  el : List (Nat × ν)

/-- What a container variable holds: nothing defined, the null pointer of a zero-initialised struct (vec.h 90), or a
pointer to a block, which may have been freed. -/
inductive Slot where
  | junk
  | null
  | ptr (h : Nat)
  deriving DecidableEq

/-- Memory: the live blocks, the variables, the identity of the next object to be made, and the identities of the
objects that left their container, in order (`true`: destroyed by the container, `false`: moved out to the caller). -/
structure St (ν : Type) where
  heap : Nat → Option (Blk ν)
  var : Nat → Slot
  next : Nat
  gone : List (Nat × Bool)

/-- Assignment to one place (C semantics of `=`). -/
def set {α : Type} (f : Nat → α) (i : Nat) (x : α) : Nat → α := fun j => if j = i then x else f j

/-- The two ways `_copy` is written: vec reuses its block (vec.h 138-142), the others drop and clone (stack.h 198-202,
queue_prv.h 66-70, pqueue.h 118-122, hmap.h 144-149, smap.h 165-170). -/
inductive Kind where
  | vec
  | other
  deriving DecidableEq

/-- The answer of `malloc`: address and capacity of the new block. An allocator does not hand out the address of a
live block, so such an answer counts as a refusal, like one that is too small (`i_malloc`, common.h). -/
def grant (s : St ν) (n : Nat) (a : Option (Nat × Nat)) : Option (Nat × Nat) :=
  a.filter fun x => (s.heap x.1).isNone && decide (n ≤ x.2)

/-- The answer of `realloc`, which may also be the old address (`i_realloc`, common.h). -/
def regrant (s : St ν) (old : Option Nat) (n : Nat) (a : Option (Nat × Nat)) : Option (Nat × Nat) :=
  a.filter fun x => ((s.heap x.1).isNone || decide (some x.1 = old)) && decide (n ≤ x.2)

/-- The block of a variable: the address, and the contents; a zero-initialised variable has no block and capacity 0.
Using a variable without defined value or whose block was freed is undefined (vec.h 90). -/
def deref (s : St ν) (i : Nat) : Option (Option Nat × Blk ν) :=
  match s.var i with
  | .junk => none
  | .null => some (none, ⟨0, []⟩)
  | .ptr h => (s.heap h).map fun b => (some h, b)

/-- `i_free` (common.h). -/
def free (heap : Nat → Option (Blk ν)) (h : Option Nat) : Nat → Option (Blk ν) :=
  match h with
  | none => heap
  | some h => set heap h none

/-- Objects with new identities and the values of others: the results of `i_keyclone` (vec.h 343-344). -/
def fresh (n : Nat) : List ν → List (Nat × ν)
  | [] => []
  | v :: l => (n, v) :: fresh (n + 1) l

/-- `_init` (vec.h 90): `Self i = {0}`. -/
def init (s : St ν) (i : Nat) : St ν := { s with var := set s.var i .null }

/-- Adding one object at position `p` (vec.h 104-111 `_push`, 315-325 `_insert_uninit`; stack.h 156-162; deque.h;
pqueue.h; hmap.h and smap.h `_insert`, where the position follows from the key). `false`: the allocator refused. -/
def insert (s : St ν) (i p : Nat) (v : ν) (a : Option (Nat × Nat)) : Option (St ν × Bool) :=
  (deref s i).bind fun (h, b) =>
    if p ≤ b.el.length then
      let el := b.el.take p ++ (s.next, v) :: b.el.drop p
      if b.el.length < b.cap then
        h.map fun h => ({ s with heap := set s.heap h (some { b with el := el }), next := s.next + 1 }, true)
      else
        match regrant s h (b.el.length + 1) a with
        | none => some (s, false)
        | some (h', c) =>
          some ({ s with
            heap := set (free s.heap h) h' (some ⟨c, el⟩)
            var := set s.var i (.ptr h')
            next := s.next + 1 }, true)
    else none

/-- Removing the object at position `p`: destroyed (`_pop`, `_erase`, vec.h 327-336) or moved out to the caller
(`_pull`, vec.h 163-164, queue_prv.h 108-114), by `d`. -/
def remove (s : St ν) (i p : Nat) (d : Bool) : Option (St ν) :=
  (deref s i).bind fun (h, b) =>
    h.bind fun h =>
      b.el[p]?.map fun x =>
        { s with heap := set s.heap h (some { b with el := b.el.eraseIdx p }), gone := s.gone ++ [(x.1, d)] }

/-- `_clear` (vec.h 271-278): destroys the objects from the last to the first, keeps the block. -/
def clear (s : St ν) (i : Nat) : Option (St ν) :=
  (deref s i).map fun (h, b) =>
    match h with
    | none => s
    | some h =>
      { s with
        heap := set s.heap h (some { b with el := [] })
        gone := s.gone ++ b.el.reverse.map fun x => (x.1, true) }

/-- `_drop` (vec.h 280-287): destroys the objects and frees the block; the variable keeps the pointer. -/
def drop (s : St ν) (i : Nat) : Option (St ν) :=
  (deref s i).map fun (h, b) =>
    { s with
      heap := free s.heap h
      gone := s.gone ++ b.el.reverse.map fun x => (x.1, true) }

/-- `j = _clone(i)`. vec (vec.h 144-149) makes no block for an empty source, and an empty vec if the allocator
refuses. The others (stack.h 187-196, queue_prv.h 237-250, pqueue.h 153-160, hmap.h 428-450, smap.h 557-565) ask for a
block for any size, and if refused produce a struct with a size and without a block: undefined here, since nearly every
use of it is. -/
def clone (k : Kind) (s : St ν) (j i : Nat) (a : Option (Nat × Nat)) : Option (St ν × Bool) :=
  (deref s i).bind fun (_, b) =>
    if k = .vec ∧ b.el = [] then some ({ s with var := set s.var j .null }, true)
    else
      match grant s b.el.length a with
      | none => if k = .vec then some ({ s with var := set s.var j .null }, false) else none
      | some (h', c) =>
        some ({ s with
          heap := set s.heap h' (some ⟨c, fresh s.next (b.el.map (·.2))⟩)
          var := set s.var j (.ptr h')
          next := s.next + b.el.length }, true)

/-- `_copy_n(self, 0, other.data, other.size)` on a cleared vec (vec.h 339-348 with 315-325 and 289-300). -/
def refill (s : St ν) (j : Nat) (vs : List ν) (a : Option (Nat × Nat)) : Option (St ν × Bool) :=
  (deref s j).bind fun (h, b) =>
    if vs.length ≤ b.cap then
      match h with
      | none => if vs = [] then some (s, true) else none
      | some h =>
        some ({ s with
          heap := set s.heap h (some { b with el := fresh s.next vs })
          next := s.next + vs.length }, true)
    else
      match regrant s h vs.length a with
      | none => some (s, false)
      | some (h', c) =>
        some ({ s with
          heap := set (free s.heap h) h' (some ⟨c, fresh s.next vs⟩)
          var := set s.var j (.ptr h')
          next := s.next + vs.length }, true)

/-- `_copy(&j, i)`: nothing if the two point to the same block; vec.h 138-142, or stack.h 198-202 and others. -/
def copy (k : Kind) (s : St ν) (j i : Nat) (a : Option (Nat × Nat)) : Option (St ν × Bool) :=
  (deref s i).bind fun (hi, bi) =>
    (deref s j).bind fun (hj, _) =>
      if hi = hj then some (s, true)
      else
        match k with
        | .vec => (clear s j).bind fun s => refill s j (bi.el.map (·.2)) a
        | .other => (drop s j).bind fun s => clone .other s j i a

/-- `Self j = _move(&i)` (vec.h 93-97): the struct is copied and the source zeroed. Copying an indeterminate struct is
undefined. -/
def move (s : St ν) (j i : Nat) : Option (St ν) :=
  if s.var i = .junk then none else some { s with var := set (set s.var i .null) j (s.var i) }

/-- `_take(&j, _move(&i))` (vec.h 99-102): the argument is evaluated first. -/
def take (s : St ν) (j i : Nat) : Option (St ν) :=
  if s.var i = .junk then none
  else (drop { s with var := set s.var i .null } j).map fun t => { t with var := set t.var j (s.var i) }

/-- `c_swap(&i, &j)` (common.h 287-294); `memcpy` of a variable to itself is undefined. -/
def swap (s : St ν) (i j : Nat) : Option (St ν) :=
  if i = j ∨ s.var i = .junk ∨ s.var j = .junk then none
  else some { s with var := set (set s.var i (s.var j)) j (s.var i) }

/-- The calls (vec.h 88-150 and the places named above), with the answer of the allocator where they ask it. -/
inductive Op (ν : Type) where
  | init (i : Nat)
  | insert (i p : Nat) (v : ν) (a : Option (Nat × Nat))
  | remove (i p : Nat) (d : Bool)
  | clear (i : Nat)
  | clone (j i : Nat) (a : Option (Nat × Nat))
  | copy (j i : Nat) (a : Option (Nat × Nat))
  | move (j i : Nat)
  | take (j i : Nat)
  | swap (i j : Nat)
  | drop (i : Nat)

/-- One call (vec.h 88-150); the second component is `false` when the allocator refused what was needed. -/
def step (k : Kind) (s : St ν) : Op ν → Option (St ν × Bool)
  | .init i => some (init s i, true)
  | .insert i p v a => insert s i p v a
  | .remove i p d => (remove s i p d).map (·, true)
  | .clear i => (clear s i).map (·, true)
  | .clone j i a => clone k s j i a
  | .copy j i a => copy k s j i a
  | .move j i => (move s j i).map (·, true)
  | .take j i => (take s j i).map (·, true)
  | .swap i j => (swap s i j).map (·, true)
  | .drop i => (drop s i).map (·, true)

/-- At the start no variable has a value (C semantics of automatic variables). -/
def start : St ν := ⟨fun _ => none, fun _ => .junk, 0, []⟩

/-! The fixed-capacity stack (stack.h 39-41 and 52-54): the objects are inside of the variable. -/

/-- Variables with the objects inside; `gone` as above (types.h `_c_stack_fixed`). -/
structure Inl (ν : Type) where
  var : Nat → List (Nat × ν)
  next : Nat
  gone : List Nat

/-- `_push` (stack.h 156-162) on a stack of capacity `c`. -/
def Inl.push (c : Nat) (s : Inl ν) (i : Nat) (v : ν) : Inl ν × Bool :=
  if (s.var i).length < c then ({ s with var := set s.var i (s.var i ++ [(s.next, v)]), next := s.next + 1 }, true)
  else (s, false)

/-- `Self j = _move(&i)` (stack.h 53-54): `return *self`. -/
def Inl.move (s : Inl ν) (j i : Nat) : Inl ν := { s with var := set s.var j (s.var i) }

/-- `_drop` (stack.h 75-88): destroys the objects and sets the size to 0. -/
def Inl.drop (s : Inl ν) (i : Nat) : Inl ν :=
  { s with var := set s.var i [], gone := s.gone ++ (s.var i).reverse.map (·.1) }

end Verif.Own
