import Verif.Vec.Model
/-
Model of `stack` (include/stc/stack.h), both variants: growing (default) and fixed capacity
(`i_capacity` defined, storage inside the struct).  The struct has the fields of `vec`
(types.h `_c_vec_types`); for the fixed variant `data` is always a block of `i_capacity`
slots and `cap` stands for the constant `i_capacity`.
-/
namespace Verif.Stack
variable {α : Type _}

abbrev Stack (α : Type _) := Vec.Vec α

/-- stack.h:49-50 `_init`: zero-initialised struct; `fixed = some N` for `i_capacity = N`. -/
def init : Option Nat → Stack α
  | none => ⟨none, 0, 0, []⟩
  | some n => ⟨some (List.replicate n none), 0, n, []⟩

/-- stack.h:112-127 `_reserve`. -/
def reserve (fixed : Option Nat) (ok : Bool) (s : Stack α) (n : Nat) : Stack α × Bool :=
  match fixed with
  | some cap => (s, decide (n ≤ cap))
  | none =>
    if n > s.cap ∨ (n ≠ 0 ∧ n = s.size) then
      if ok then
        ({ s with data := some ((s.data.getD []).realloc n), cap := n }, true)
      else (s, false)
    else (s, s.data.isSome)

/-- stack.h:101-107 `_capacity`. -/
def capacity (fixed : Option Nat) (s : Stack α) : Nat :=
  match fixed with
  | some cap => cap
  | none => s.cap

/-- stack.h:156-162 `_push` (also `_emplace`, 183-184). `false` = NULL. -/
def push (fixed : Option Nat) (ok : Bool) (s : Stack α) (x : α) : Option (Stack α × Bool) :=
  let go (s : Stack α) : Option (Stack α × Bool) := do
    let b ← s.data
    let b ← b.wr s.size x
    some ({ s with data := some b, size := s.size + 1 }, true)
  if s.size = capacity fixed s then
    match reserve fixed ok s (s.size * 3 / 2 + 4) with
    | (s', true) => go s'
    | (s', false) => some (s', false)
  else go s

/-- stack.h:129-136 `_append_uninit`, followed by the caller's stores of `arr` through the
returned pointer. -/
def append (fixed : Option Nat) (ok : Bool) (s : Stack α) (arr : List α) :
    Option (Stack α × Bool) :=
  let go (s : Stack α) : Option (Stack α × Bool) := do
    let b ← s.data
    let b ← b.cpy s.size arr
    some ({ s with data := some b, size := s.size + arr.length }, true)
  if s.size + arr.length ≥ capacity fixed s then
    match reserve fixed ok s (s.size * 3 / 2 + arr.length) with
    | (s', true) => go s'
    | (s', false) => some (s', false)
  else go s

/-- stack.h:164-165 `_pop`. -/
def pop (s : Stack α) : Option (Stack α) := do
  guard (s.size ≠ 0)
  let b ← s.data
  let (x, b) ← b.kill (s.size - 1)
  some { s with data := some b, size := s.size - 1, dropped := s.dropped ++ [x] }

/-- stack.h:167-168 `_pull`. -/
def pull (s : Stack α) : Option (Stack α × α) := do
  guard (s.size ≠ 0)
  let b ← s.data
  let (x, b) ← b.kill (s.size - 1)
  some ({ s with data := some b, size := s.size - 1 }, x)

/-- stack.h:151-154 `_top`/`_back`: `&data[size - 1]`, read by the caller. -/
def top (s : Stack α) : Option α := do
  guard (s.size ≠ 0)
  let b ← s.data
  b.rd (s.size - 1)

/-- stack.h:176-180 `_at`. -/
def at' (s : Stack α) (i : Nat) : Option α := do
  guard (i < s.size)
  let b ← s.data
  b.rd i

/-- stack.h:75-80 `_clear`. -/
def clear (s : Stack α) : Option (Stack α) :=
  if s.size = 0 then some s
  else do
    let b ← s.data
    let (b, log) ← Vec.dropDown b s.dropped s.size
    some { s with data := some b, size := 0, dropped := log }

/-- stack.h:138-139 `_shrink_to_fit`. -/
def shrinkToFit (fixed : Option Nat) (ok : Bool) (s : Stack α) : Stack α :=
  (reserve fixed ok s s.size).1

/-- stack.h:213-217 `_begin`, 231-232 `_next` and the `c_each` loop of common.h:164-165: the same
text as in vec.h. -/
def each (s : Stack α) (fuel : Nat) : Option (List α) := Vec.each s fuel

/-- stack.h:219-223 `_rbegin`, 234-235 `_rnext`: the same text as in vec.h. -/
def eachReverse (s : Stack α) (fuel : Nat) : Option (List α) := Vec.eachReverse s fuel

/-- One API call. -/
inductive Op (α : Type _) where
  | push (ok : Bool) (x : α)
  | append (ok : Bool) (arr : List α)
  | pop
  | pull
  | reserve (ok : Bool) (n : Nat)
  | shrinkToFit (ok : Bool)
  | clear

/-- Execute one call; reply: success flag and element handed to the caller. -/
def step (fixed : Option Nat) (s : Stack α) : Op α → Option (Stack α × Bool × Option α)
  | .push ok x => do let (s, r) ← push fixed ok s x; some (s, r, none)
  | .append ok arr => do let (s, r) ← append fixed ok s arr; some (s, r, none)
  | .pop => do let s ← pop s; some (s, true, none)
  | .pull => do let (s, x) ← pull s; some (s, true, some x)
  | .reserve ok n => let (s, r) := reserve fixed ok s n; some (s, r, none)
  | .shrinkToFit ok => some (shrinkToFit fixed ok s, true, none)
  | .clear => do let s ← clear s; some (s, true, none)

end Verif.Stack
