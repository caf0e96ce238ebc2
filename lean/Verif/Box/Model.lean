import Verif.Base
/-
Model of `box` (include/stc/box.h), the owning pointer.

Addresses are numbers, 0 is NULL, and the address `malloc` returns is a parameter. A variable is
`none` when it holds no box (not initialised, or dropped), so that using it is undefined. The user
also owns plain pointers (from `malloc` and from `_release`), possibly NULL. `none` as the outcome is
undefined behaviour.

Simplification: `malloc` succeeds (its result is not tested in box.h).
-/
namespace Verif.Box
variable {α : Type}

/-- Memory: the allocated blocks, the live values, and the values destroyed so far. -/
structure Mem (α : Type) where
  blocks : List Nat
  vals : List (Nat × α)
  dropped : List α

/-- `malloc`, at `a`, and storing a value in the block. -/
def Mem.new (m : Mem α) (a : Nat) (v : α) : Mem α := { m with blocks := a :: m.blocks, vals := (a, v) :: m.vals }

/-- Read a value: its block is allocated and the value not destroyed. -/
def Mem.load (m : Mem α) (p : Nat) : Option α := do
  guard (p ∈ m.blocks)
  m.vals.lookup p

/-- `i_keydrop(p)`. -/
def Mem.kdrop (m : Mem α) (p : Nat) : Option (Mem α) := do
  let v ← m.load p
  some { m with vals := m.vals.eraseP fun e => e.1 == p, dropped := m.dropped ++ [v] }

/-- `i_free(p, n)`. -/
def Mem.free (m : Mem α) (p : Nat) : Option (Mem α) := do
  guard (p ∈ m.blocks)
  some { m with blocks := m.blocks.erase p }

/-- Memory, variables, and pointers owned by the user. -/
structure State (α : Type) where
  mem : Mem α
  vars : List (Option Nat)
  raws : List Nat

/-- The box in a variable. -/
def State.var (s : State α) (x : Nat) : Option Nat := s.vars[x]?.join

/-- The variable exists and holds nothing. -/
def State.vacant (s : State α) (x : Nat) : Bool := s.vars[x]? == some none

/-- Store in a variable. -/
def State.put (s : State α) (x : Nat) (p : Nat) : State α := { s with vars := s.vars.set x (some p) }

/-- The variable no longer holds anything. -/
def State.clear (s : State α) (x : Nat) : State α := { s with vars := s.vars.set x none }

/-- `_drop` (box.h 105-110). -/
def drop (m : Mem α) (p : Nat) : Option (Mem α) :=
  if p ≠ 0 then do
    let m ← m.kdrop p
    m.free p
  else some m

/-- Calls; `i` is a position among the user's pointers. -/
inductive Op (α : Type) where
  | init (x : Nat)
  | make (x : Nat) (v : α)
  | raw (v : α)
  | freeRaw (i : Nat)
  | fromPtr (x i : Nat)
  | drop (x : Nat)
  | move (x y : Nat)
  | release (x : Nat)
  | resetTo (x i : Nat)
  | take (x y : Nat)
  | assign (x y : Nat)
  | clone (x y : Nat)

/-- `_make` (box.h 89-93). -/
def make (m : Mem α) (a : Nat) (v : α) : Mem α × Nat := (m.new a v, a)

/-- `_clone` (box.h 145-150); `cl` is `i_keyclone`. -/
def clone (cl : α → α) (m : Mem α) (a p : Nat) : Option (Mem α × Nat) :=
  if p = 0 then some (m, p)
  else do
    let v ← m.load p
    some (m.new a (cl v), a)

/-- One call; `a` is the address `malloc` returns if it is called. -/
def step (cl : α → α) (s : State α) (a : Nat) : Op α → Option (State α)
  | .init x => do
    -- box.h 81-82
    guard (s.vacant x)
    some (s.put x 0)
  | .make x v => do
    guard (s.vacant x)
    let r := make s.mem a v
    some { s.put x r.2 with mem := r.1 }
  | .raw v => some { s with mem := s.mem.new a v, raws := a :: s.raws }
  | .freeRaw i => do
    -- the user destroys and frees a value themselves
    let p ← s.raws[i]?
    let m ← drop s.mem p
    some { s with mem := m, raws := s.raws.eraseIdx i }
  | .fromPtr x i => do
    -- box.h 95-96
    guard (s.vacant x)
    let p ← s.raws[i]?
    some { s.put x p with raws := s.raws.eraseIdx i }
  | .drop x => do
    let p ← s.var x
    let m ← drop s.mem p
    some { s.clear x with mem := m }
  | .move x y => do
    -- box.h 113-117: `y = _move(&x)`
    let p ← s.var x
    guard (s.vacant y)
    some ((s.put x 0).put y p)
  | .release x => do
    -- box.h 120-121
    let p ← s.var x
    some { s.put x 0 with raws := p :: s.raws }
  | .resetTo x i => do
    -- box.h 124-127
    let p ← s.var x
    let q ← s.raws[i]?
    let m ← drop s.mem p
    some { s.put x q with mem := m, raws := s.raws.eraseIdx i }
  | .take x y => do
    -- box.h 130-133: `_take(&x, y)`, `y` is given up
    guard (x ≠ y)
    let p ← s.var x
    let q ← s.var y
    let m ← drop s.mem p
    some { (s.put x q).clear y with mem := m }
  | .assign x y => do
    -- box.h 136-142
    let p ← s.var x
    let q ← s.var y
    if q = p then some s
    else do
      let m ← drop s.mem p
      some { (s.put x q).put y 0 with mem := m }
  | .clone x y => do
    -- `y = _clone(x)`
    let p ← s.var x
    guard (s.vacant y)
    let r ← clone cl s.mem a p
    some { s.put y r.2 with mem := r.1 }

/-- `k` variables and no memory. -/
def init (k : Nat) : State α := ⟨⟨[], [], []⟩, List.replicate k none, []⟩

end Verif.Box
