import Verif.Base
/-
Model of the coroutine macros (include/stc/coroutine.h 62-169): what the `for`/`switch` of
`cco_routine` does with the state variable, for any user code between the suspension points.
-/
namespace Verif.Coro
variable {σ : Type}

/-- `CCO_STATE_FINALLY` (coroutine.h 64). -/
def FINALLY : Int := -1
/-- `CCO_STATE_DONE` (coroutine.h 65). -/
def DONE : Int := -2
/-- `CCO_DONE` (coroutine.h 68). -/
def rDONE : Int := 0
/-- `CCO_AWAIT` (coroutine.h 71). -/
def rAWAIT : Int := 2 ^ 29

/-- How a piece of user code, run from a `case` label, reaches the next macro. -/
inductive Exit where
  /-- `cco_yield_v(v)` at a line (coroutine.h 127-131) -/
  | yield (line : Nat) (v : Int)
  /-- `cco_await` at a line: the state is set and the `case` label of that line is reached
  (coroutine.h 140-143) -/
  | await (line : Nat)
  /-- the condition at the label of a `cco_await` is false (coroutine.h 143) -/
  | wait
  /-- `cco_return` (coroutine.h 120-124) -/
  | ret
  /-- `cco_yield_final_v(v)` (coroutine.h 134-138) -/
  | yieldFinal (v : Int)
  /-- the code runs into `cco_finally`, or to the end of the block if it is behind `cco_finally` -/
  | fall

/-- A coroutine function: its user code from each label in the body (0 for the start) and from each
label behind `cco_finally`, and which lines are behind `cco_finally`. -/
structure Prog (σ : Type) where
  body : Nat → σ → σ × Exit
  fin : σ → σ × Exit
  finAt : Nat → σ → σ × Exit
  inFin : Nat → Bool

/-- A coroutine object: `cco.state`, the other members, and how often the code at `cco_finally` was
entered. -/
structure Co (σ : Type) where
  state : Int
  data : σ
  entered : Nat

/-- `cco_stop` (coroutine.h 162-166); also the state change of `cco_return` and `cco_yield_final_v`
(coroutine.h 122, 136). -/
def stopState (s : Int) : Int := if s ≥ 0 then FINALLY else DONE

/-- What the macro at the end of a piece of code does; `k` is the jump back to the `switch`, `behind`
says whether the code is behind `cco_finally` (coroutine.h 93-96, 114-144). -/
def next (k : Co σ → Option (Co σ × Int)) (c : Co σ) (e : Exit) (behind : Bool) : Option (Co σ × Int) :=
  match e with
  | .yield n v => some ({ c with state := (n : Int) }, v)
  | .await n => k { c with state := (n : Int) }
  | .wait => some (c, rAWAIT)
  | .ret => k { c with state := stopState c.state }
  | .yieldFinal v => some ({ c with state := stopState c.state }, v)
  | .fall =>
    if behind then some ({ c with state := DONE }, rDONE)
    else k { c with state := FINALLY }

/-- The `for` of `cco_routine` and the `return 0` behind it (coroutine.h 93-96): entered with
`*_state` as it is, each `goto _resume` going round. `f` bounds the number of labels passed; none if
the user code never stops. -/
def go (p : Prog σ) : Nat → Co σ → Option (Co σ × Int)
  | 0, _ => none
  | f + 1, c =>
    if c.state = DONE then some (c, rDONE)
    else if c.state = FINALLY then
      next (go p f) { c with data := (p.fin c.data).1, entered := c.entered + 1 } (p.fin c.data).2 true
    else if 0 ≤ c.state then
      if p.inFin c.state.toNat then
        next (go p f) { c with data := (p.finAt c.state.toNat c.data).1 } (p.finAt c.state.toNat c.data).2 true
      else
        next (go p f) { c with data := (p.body c.state.toNat c.data).1 } (p.body c.state.toNat c.data).2 false
    else
      -- no `case` matches, the block is left (coroutine.h 95)
      some ({ c with state := DONE }, rDONE)

/-- One call of the coroutine function. -/
def resume (p : Prog σ) (f : Nat) (c : Co σ) : Option (Co σ × Int) := go p f c

/-- `cco_stop(co)` (coroutine.h 162-166). -/
def stop (c : Co σ) : Co σ := { c with state := stopState c.state }

/-- A fresh coroutine object (state 0). -/
def fresh (d : σ) : Co σ := ⟨0, d, 0⟩

end Verif.Coro
