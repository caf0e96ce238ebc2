import Verif.Base
/-
Model of `arc` (include/stc/arc.h), the shared pointer with an atomic reference count, under any
interleaving of threads.

A call is cut into the steps other threads can observe: one atomic operation on a counter, the
destruction of the value, each `free`, and each store to a variable of the calling thread. Steps of
the threads interleave in any order (the atomics are sequentially consistent, arc.h 72-73). Work on
memory no other thread can know yet (filling in a fresh block) is one step.

Addresses are numbers, 0 is NULL, and `malloc` returns any free range. A variable is `none` when it
holds nothing (not initialised, or dropped), so using it is undefined. `none` as the outcome of a
step is undefined behaviour: access outside an allocated block, to a destroyed value, or freeing
what is not a block.

Simplifications: the counter does not overflow (each reference needs a handle somewhere in memory, so
there are fewer than 2^63); `malloc` succeeds (its result is not tested in arc.h).
-/
namespace Verif.Arc
variable {α : Type}

/-- The sizes of an instance of the template: `OFFSET` (arc.h 124), `sizeof(i_key)`, and
`sizeof(struct _rep_)` (arc.h 105). -/
structure Layout where
  off : Nat
  sz : Nat
  rep : Nat

/-- `Self` (types.h 100-105): `get` and `use_count`. -/
structure Arc where
  get : Nat
  use : Nat
deriving DecidableEq

/-- `_init` (arc.h 107-108), and the contents of a variable after `_move`. -/
def Arc.null : Arc := ⟨0, 0⟩

/-- Memory: the allocated blocks (address and size), the counters, the live values, and the values
destroyed by `i_keydrop` so far. -/
structure Mem (α : Type) where
  blocks : List (Nat × Nat)
  cnt : Nat → Int
  vals : List (Nat × α)
  dropped : List α

/-- The range `[a, a + n)` is inside an allocated block. -/
def Mem.covers (m : Mem α) (a n : Nat) : Bool := m.blocks.any fun b => decide (b.1 ≤ a ∧ a + n ≤ b.1 + b.2)

/-- Read a counter (8 bytes). -/
def Mem.load (m : Mem α) (a : Nat) : Option Int := do
  guard (m.covers a 8)
  some (m.cnt a)

/-- Write a counter. -/
def Mem.store (m : Mem α) (a : Nat) (k : Int) : Option (Mem α) := do
  guard (m.covers a 8)
  some { m with cnt := fun b => if b = a then k else m.cnt b }

/-- Read a value. -/
def Mem.value (m : Mem α) (a : Nat) : Option α := m.vals.lookup a

/-- `malloc` of `n` bytes at `a`, which the allocator chose. -/
def Mem.malloc (m : Mem α) (a n : Nat) : Mem α := { m with blocks := (a, n) :: m.blocks }

/-- Put a value at an address inside a block. -/
def Mem.put (L : Layout) (m : Mem α) (a : Nat) (v : α) : Option (Mem α) := do
  guard (m.covers a L.sz)
  some { m with vals := (a, v) :: m.vals }

/-- `i_keydrop(ptr)`. -/
def Mem.kdrop (L : Layout) (m : Mem α) (a : Nat) : Option (Mem α) := do
  guard (m.covers a L.sz)
  let v ← m.vals.lookup a
  some { m with vals := m.vals.eraseP fun e => e.1 == a, dropped := m.dropped ++ [v] }

/-- `i_free(ptr, n)`. -/
def Mem.free (m : Mem α) (a n : Nat) : Option (Mem α) := do
  guard ((a, n) ∈ m.blocks)
  some { m with blocks := m.blocks.erase (a, n) }

/-- The steps of a call. -/
inductive Act (α : Type) where
  /-- `_i_atomic_inc(h.use_count)` -/
  | inc (h : Arc)
  /-- `_i_atomic_dec_and_test(h.use_count)` and the branch on it -/
  | dec (h : Arc)
  /-- `i_keydrop(p)` -/
  | kdrop (p : Nat)
  /-- `i_free(p, n)` -/
  | free (p n : Nat)
  /-- store a handle in a variable -/
  | set (x : Nat) (h : Arc)
  /-- `_make(val)` into a variable -/
  | make (x : Nat) (v : α)
  /-- `_from_ptr(p)` into a variable -/
  | ctl (x : Nat) (p : Nat)
  /-- the user's `malloc` of a value -/
  | raw (v : α)
  /-- read `*x.get` -/
  | read (x : Nat)
  /-- `_use_count(&x)` -/
  | count (x : Nat)

/-- A thread: its variables and the rest of the call it is in. -/
structure Thread (α : Type) where
  vars : List (Option Arc)
  todo : List (Act α)

/-- Memory, threads, handles in flight between threads, and pointers owned by the user. -/
structure State (α : Type) where
  mem : Mem α
  threads : List (Thread α)
  chan : List Arc
  raws : List Nat

/-- `_drop` (arc.h 141-153), as far as the branch on the counter. -/
def dropActs (h : Arc) : List (Act α) := if h.use ≠ 0 then [.dec h] else []

/-- The body of the branch in `_drop` (arc.h 143-151). -/
def destroyActs (L : Layout) (h : Arc) : List (Act α) :=
  .kdrop h.get :: if h.use + L.off = h.get then [.free h.use L.rep] else [.free h.use (L.off + 4), .free h.get L.sz]

/-- Increment if not NULL (arc.h 176, 183). -/
def incActs (h : Arc) : List (Act α) := if h.use ≠ 0 then [.inc h] else []

/-- The calls of a thread. -/
inductive Op (α : Type) where
  | init (x : Nat)
  | make (x : Nat) (v : α)
  | raw (v : α)
  | fromPtr (x p : Nat)
  | drop (x : Nat)
  | move (x y : Nat)
  | resetTo (x p : Nat)
  | take (x y : Nat)
  | assign (x y : Nat)
  | clone (x y : Nat)
  | send (x : Nat)
  | recv (x i : Nat)
  | read (x : Nat)
  | count (x : Nat)

/-- The handle in a variable. -/
def Thread.var (t : Thread α) (x : Nat) : Option Arc := t.vars[x]?.join

/-- The variable no longer holds anything. -/
def Thread.clear (t : Thread α) (x : Nat) : Thread α := { t with vars := t.vars.set x none }

/-- Store in a variable. -/
def Thread.put (t : Thread α) (x : Nat) (h : Arc) : Thread α := { t with vars := t.vars.set x (some h) }

/-- The variable exists and holds nothing. -/
def Thread.vacant (t : Thread α) (x : Nat) : Bool := t.vars[x]? == some none

/-- Take a pointer from the user, unless it is NULL. -/
def takeRaw (raws : List Nat) (p : Nat) : Option (List Nat) :=
  if p = 0 then some raws else if p ∈ raws then some (raws.erase p) else none

/-- What a call does to the variables at once, and its steps. -/
def begin (op : Op α) (t : Thread α) (chan : List Arc) (raws : List Nat) : Option (Thread α × List Arc × List Nat) :=
  match op with
  | .init x => do
    -- arc.h 107-108
    guard (t.vacant x)
    some ({ t with todo := [.set x .null] }, chan, raws)
  | .make x v => do
    -- arc.h 115-121
    guard (t.vacant x)
    some ({ t with todo := [.make x v] }, chan, raws)
  | .raw v => some ({ t with todo := [.raw v] }, chan, raws)
  | .fromPtr x p => do
    -- arc.h 123-132
    guard (t.vacant x)
    let raws ← takeRaw raws p
    some ({ t with todo := [.ctl x p] }, chan, raws)
  | .drop x => do
    -- arc.h 141-153
    let h ← t.var x
    some ({ t.clear x with todo := dropActs h }, chan, raws)
  | .move x y => do
    -- arc.h 156-160: `y = _move(&x)`
    let h ← t.var x
    guard (t.vacant y)
    some ({ t.put x .null with todo := [.set y h] }, chan, raws)
  | .resetTo x p => do
    -- arc.h 163-166
    let h ← t.var x
    let raws ← takeRaw raws p
    some ({ t.clear x with todo := dropActs h ++ [.ctl x p] }, chan, raws)
  | .take x y => do
    -- arc.h 169-172: `_take(&x, y)`, `y` is given up
    guard (x ≠ y)
    let h ← t.var x
    let k ← t.var y
    some ({ (t.clear x).clear y with todo := dropActs h ++ [.set x k] }, chan, raws)
  | .assign x y => do
    -- arc.h 175-179
    let h ← t.var x
    let k ← t.var y
    some ({ t.clear x with todo := incActs k ++ dropActs h ++ [.set x k] }, chan, raws)
  | .clone x y => do
    -- arc.h 182-185: `y = _clone(x)`
    let h ← t.var x
    guard (t.vacant y)
    some ({ t with todo := incActs h ++ [.set y h] }, chan, raws)
  | .send x => do
    -- hand the handle to another thread
    let h ← t.var x
    some (t.clear x, h :: chan, raws)
  | .recv x i => do
    -- take a handle from another thread
    guard (t.vacant x)
    let h ← chan[i]?
    some (t.put x h, chan.eraseIdx i, raws)
  | .read x => do
    let h ← t.var x
    guard (h.use ≠ 0)
    some ({ t with todo := [.read x] }, chan, raws)
  | .count x => do
    -- arc.h 110-111
    let h ← t.var x
    some ({ t with todo := if h.use ≠ 0 then [.count x] else [] }, chan, raws)

/-- Thread `i`, which is not in a call, calls. -/
def call (s : State α) (i : Nat) (op : Op α) : Option (State α) := do
  let t ← s.threads[i]?
  guard (t.todo.isEmpty)
  let (t, chan, raws) ← begin op t s.chan s.raws
  some { s with threads := s.threads.set i t, chan, raws }

/-- One step: memory, the thread (with the rest of the call as `todo`), and the user's pointers. `a`
is the address `malloc` returns if it is called. -/
def act (L : Layout) (a : Nat) (c : Act α) (m : Mem α) (t : Thread α) (raws : List Nat) : Option (Mem α × Thread α × List Nat) :=
  match c with
  | .inc h => do
    let k ← m.load h.use
    let m ← m.store h.use (k + 1)
    some (m, t, raws)
  | .dec h => do
    let k ← m.load h.use
    let m ← m.store h.use (k - 1)
    some (m, if k - 1 = 0 then { t with todo := destroyActs L h ++ t.todo } else t, raws)
  | .kdrop p => do
    let m ← m.kdrop L p
    some (m, t, raws)
  | .free p n => do
    let m ← m.free p n
    some (m, t, raws)
  | .set x h => some (m, t.put x h, raws)
  | .make x v => do
    -- arc.h 115-121
    let m := m.malloc a L.rep
    let m ← m.store a 1
    let m ← m.put L (a + L.off) v
    some (m, t.put x ⟨a + L.off, a⟩, raws)
  | .ctl x p =>
    -- arc.h 123-132
    if p ≠ 0 then do
      let m := m.malloc a (L.off + 4)
      let m ← m.store a 1
      some (m, t.put x ⟨p, a⟩, raws)
    else some (m, t.put x .null, raws)
  | .raw v => do
    let m := m.malloc a L.sz
    let m ← m.put L a v
    some (m, t, a :: raws)
  | .read x => do
    let h ← t.var x
    let _ ← m.value h.get
    some (m, t, raws)
  | .count x => do
    let h ← t.var x
    let _ ← m.load h.use
    some (m, t, raws)

/-- Thread `i`, which is in a call, does its next step. -/
def step (L : Layout) (s : State α) (i a : Nat) : Option (State α) := do
  let t ← s.threads[i]?
  match t.todo with
  | [] => none
  | c :: cs => do
    let (m, t, raws) ← act L a c s.mem { t with todo := cs } s.raws
    some { s with mem := m, threads := s.threads.set i t, raws }

/-- `n` threads with `k` variables each. -/
def init (n k : Nat) : State α := ⟨⟨[], fun _ => 0, [], []⟩, List.replicate n ⟨List.replicate k none, []⟩, [], []⟩

end Verif.Arc
