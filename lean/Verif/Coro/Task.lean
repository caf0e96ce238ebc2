import Verif.Base
/-
Model of the tasks of one fiber (include/stc/coroutine.h 218-237, 276-303). The chain from
`fb->task` along `cco.parent_task` is a list, innermost first, each task with its `awaitbits`. What a
task does while it is resumed is left open: each resume comes with an event giving its result, whether
it awaits another task, and whether an error is set when it returns. Simplified: a task is in the
chain at most once; error codes and `cco_yield_to` are left out.
-/
namespace Verif.Coro

/-- What happened while a fiber was resumed. -/
inductive Act where
  | resumed (t : Nat)
  | stopped (t : Nat)
deriving DecidableEq, Repr

/-- What one resume of a task does: its result, `cco_await_task` and its await bits, `fb->error`. -/
structure TEv where
  result : BitVec 32
  await : Option (Nat × BitVec 32)
  error : Bool

/-- How one round of the loop of `cco_resume_current` ends: yield (the fiber goes on at its next turn),
again at once, done, or end of the program by an unhandled error. -/
inductive Next where
  | suspend | again | done | abort
deriving DecidableEq, Repr

/-- `cco_await_task` (coroutine.h 218-226): the awaited task becomes the innermost. -/
def pushTask (st : List (Nat × BitVec 32)) : Option (Nat × BitVec 32) → List (Nat × BitVec 32)
  | none => st
  | some c => c :: st

/-- One round of the loop of `cco_resume_current` (coroutine.h 278-292); `parents` is read before the
task is resumed. -/
def taskStep (st : List (Nat × BitVec 32)) (e : TEv) : Option (List (Nat × BitVec 32) × List Act × Next) :=
  match st with
  | [] => none
  | t :: parents =>
    if e.error then
      match parents with
      | [] => some ([], [.resumed t.1], .abort)
      | p :: ps => some (p :: ps, [.resumed t.1, .stopped p.1], .again)
    else if e.result &&& ~~~t.2 ≠ 0 then some (pushTask (t :: parents) e.await, [.resumed t.1], .suspend)
    else
      match parents with
      | [] => some ([], [.resumed t.1], .done)
      | p :: ps => some (p :: ps, [.resumed t.1], .suspend)

/-- Resuming a fiber round by round until it is done or aborted, or the events are used up. -/
def taskRun : List (Nat × BitVec 32) → List TEv → Option (List (Nat × BitVec 32) × List Act × Next)
  | st, [] => some (st, [], .suspend)
  | st, e :: es =>
    (taskStep st e).bind fun r =>
      if r.2.2 = .done ∨ r.2.2 = .abort then some r
      else (taskRun r.1 es).bind fun q => some (q.1, r.2.1 ++ q.2.1, q.2.2)

/-! ### semaphores (coroutine.h 394-405) -/

/-- One coroutine's next call: `cco_await_semaphore` or `cco_release_semaphore`. -/
inductive SemOp where
  | await
  | release
deriving DecidableEq, Repr

/-- A semaphore with the coroutines using it: for each coroutine what it will still call, and how many
awaits and releases it has completed. -/
structure Sem where
  count : Int
  todo : List (List SemOp)
  acquired : List Nat
  released : List Nat

/-- Resuming coroutine `i` once up to its next suspension point or call: a `cco_await_semaphore` with
the count not positive suspends again (coroutine.h 140-144, 401-405), otherwise `cco_acquire_semaphore`
decrements it (398) without a suspension in between; `cco_release_semaphore` increments it (399). -/
def semStep (s : Sem) (i : Nat) : Sem :=
  match s.todo[i]? with
  | some (.await :: r) =>
    if s.count > 0 then
      { s with count := s.count - 1, todo := s.todo.set i r, acquired := s.acquired.modify i (· + 1) }
    else s
  | some (.release :: r) => { s with count := s.count + 1, todo := s.todo.set i r, released := s.released.modify i (· + 1) }
  | _ => s

/-- A schedule. -/
def semRun (s : Sem) (sched : List Nat) : Sem := sched.foldl semStep s

/-- `cco_make_semaphore(n)` used by coroutines with these programs. -/
def semInit (n : Nat) (progs : List (List SemOp)) : Sem := ⟨n, progs, progs.map (fun _ => 0), progs.map (fun _ => 0)⟩

end Verif.Coro
