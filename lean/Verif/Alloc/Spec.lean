import Mathlib.Data.List.Perm.Basic

/-! The contract of an allocator with sized deallocation, as documented in README.md ("Per
container-instance customization": "`pgs_realloc` and `pgs_free` is also passed the allocated size of the
given pointer") and docs/algorithm_api.md ("`c_realloc()` and `c_free()` have an extra size parameter").
A call that breaks the contract has no outcome. Nothing here refers to a container. -/

namespace Verif.Alloc

/-- A block handed out by the allocator: its address (a name never used twice), the number of bytes asked
for and the memory context it was taken from (`self->aux.memctx` of the README; 0 for an allocator without
contexts, and for a zeroed `aux`). -/
structure Blk where
  id : Nat
  size : Nat
  ctx : Nat
deriving DecidableEq, Repr

/-- The allocator: the blocks that are in use. -/
structure Mem where
  live : List Blk
  next : Nat
deriving DecidableEq, Repr

/-- How the allocator answers a request: refuse it, grant it, or (for `realloc`) grant it elsewhere. -/
inductive Ans where
  | fail
  | same
  | moved
deriving DecidableEq, Repr

/-- `malloc(n)`, `calloc`. `NULL` is `none`. -/
def malloc (a : Ans) (m : Mem) (ctx n : Nat) : Mem × Option Nat :=
  if a = .fail then (m, none) else (⟨⟨m.next, n, ctx⟩ :: m.live, m.next + 1⟩, some m.next)

/-- `free(p, n)`: a block may be freed only while it is in use, with the size it has, in the context it
belongs to. `NULL` may be freed with any size. -/
def free (m : Mem) (ctx : Nat) (p : Option Nat) (n : Nat) : Option Mem :=
  match p with
  | none => some m
  | some i => if ⟨i, n, ctx⟩ ∈ m.live then some { m with live := m.live.erase ⟨i, n, ctx⟩ } else none

/-- `realloc(p, old, n)`: the block must be in use with size `old` in that context. Refusal leaves it in
use, except that `realloc(p, 0)` of the usual C libraries frees the block and returns `NULL`. -/
def realloc (a : Ans) (m : Mem) (ctx : Nat) (p : Option Nat) (old n : Nat) : Option (Mem × Option Nat) :=
  match p with
  | none => some (malloc a m ctx n)
  | some i =>
    if ⟨i, old, ctx⟩ ∈ m.live then
      match a with
      | .fail => if n = 0 then some ({ m with live := m.live.erase ⟨i, old, ctx⟩ }, none) else some (m, none)
      | .same => some ({ m with live := ⟨i, n, ctx⟩ :: m.live.erase ⟨i, old, ctx⟩ }, some i)
      | .moved => some (⟨⟨m.next, n, ctx⟩ :: m.live.erase ⟨i, old, ctx⟩, m.next + 1⟩, some m.next)
    else none

/-- The block a pointer stands for; none for `NULL`. -/
def blk (p : Option Nat) (n ctx : Nat) : List Blk :=
  match p with
  | none => []
  | some i => [⟨i, n, ctx⟩]

end Verif.Alloc
