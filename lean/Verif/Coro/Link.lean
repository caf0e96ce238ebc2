import Verif.Coro.Task
/-
Model of the tasks of one fiber by their pointers (include/stc/coroutine.h 218-237, 276-303): `cco_await_task`
and `cco_yield_to` write `cco.parent_task` and `cco.awaitbits` of the task they transfer control to. Task.lean has the
chain of tasks as a list; here it is what the pointers make of it, also if a task is transferred to that is in
the chain already. What a task does while it is resumed is left open: each resume comes with a move.
-/
namespace Verif.Coro.Link

/-- `CCO_NOOP` (coroutine.h 72), returned by `cco_await_task` and `cco_yield_to`. -/
def NOOP : BitVec 32 := 1#32 <<< 30

/-- `cco.parent_task` and `cco.awaitbits` of all task objects (coroutine.h 184-190). -/
structure Objs where
  parent : Nat → Option Nat
  bits : Nat → BitVec 32

/-- How a resume of a task ends: it returns a result (0 when it is done), awaits a task, transfers to a task,
or returns with `fb->error` set. -/
inductive Move where
  | ret (v : BitVec 32)
  /-- `cco_await_task(c, fb, bits)` (coroutine.h 218-226) -/
  | await (c : Nat) (bits : BitVec 32)
  /-- `cco_yield_to(c, fb)` (coroutine.h 229-237) -/
  | yieldTo (c : Nat)
  | fail
deriving DecidableEq, Repr

/-- The two assignments to a task object by the transfer macros (coroutine.h 221-222, 232-233). -/
def Objs.link (h : Objs) (c : Nat) (p : Option Nat) (b : BitVec 32) : Objs :=
  ⟨fun t => if t = c then p else h.parent t, fun t => if t = c then b else h.bits t⟩

/-- What the macros do in the task `t`, which is `fb->task`: the objects, `fb->task`, and the value returned
(coroutine.h 218-237). -/
def effect (h : Objs) (t : Nat) : Move → Objs × Nat × BitVec 32
  | .ret v => (h, t, v)
  | .await c b => (h.link c (some t) b, c, NOOP)
  | .yieldTo c => (h.link c (h.parent t) (h.bits t), c, NOOP)
  | .fail => (h, t, 0)

/-- One round of the loop of `cco_resume_current` (coroutine.h 278-292): the parent and the await bits are read
before the task is resumed. -/
def step (h : Objs) (t : Nat) (m : Move) : Objs × Option Nat × List Act × Next :=
  let parent := h.parent t
  let awaitbits := h.bits t
  let (h', cur, result) := effect h t m
  if m = .fail then
    match parent with
    | none => (h', none, [.resumed t], .abort)
    | some p => (h', some p, [.resumed t, .stopped p], .again)
  else if result &&& ~~~awaitbits ≠ 0 then (h', some cur, [.resumed t], .suspend)
  else
    match parent with
    | none => (h', none, [.resumed t], .done)
    | some p => (h', some p, [.resumed t], .suspend)

/-- Resuming the fiber until it is over or the moves are used up (coroutine.h 276-292). -/
def run : Objs → Option Nat → List Move → List Act × Next × Option Nat
  | _, none, _ => ([], .done, none)
  | _, some t, [] => ([], .suspend, some t)
  | h, some t, m :: ms =>
    let r := step h t m
    if r.2.2.2 = .done ∨ r.2.2.2 = .abort then (r.2.2.1, r.2.2.2, none)
    else
      let q := run r.1 r.2.1 ms
      (r.2.2.1 ++ q.1, q.2)

end Verif.Coro.Link
