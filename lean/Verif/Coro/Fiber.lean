import Verif.Base
/-
Model of the fiber scheduler (include/stc/coroutine.h 249-329): fibers as addresses with a `next`
pointer (0 is NULL), the set of allocated fibers, and logs of what was resumed, allocated and freed.
What the tasks of a fiber do while it is resumed is left open: each resume comes with an event saying
which fibers it spawned and whether it finished.
-/
namespace Verif.Coro

/-- The fibers in memory. -/
structure Ring where
  next : Nat → Nat
  live : List Nat
  made : List Nat
  freed : List Nat
  resumed : List Nat

/-- What a fiber does while it is resumed once: `cco_spawn(task, fb)` with the fiber to spawn behind
and the address the allocator returns, in order, and whether its last task has finished. -/
structure Ev where
  spawns : List (Nat × Nat)
  done : Bool

/-- Assignment to one `next` pointer. -/
def setNext (n : Nat → Nat) (a b : Nat) : Nat → Nat := fun x => if x = a then b else n x

/-- `_cco_new_fiber` (coroutine.h 318-321), the allocator returning `a`. -/
def newFiber (a : Nat) : Ring := ⟨setNext (fun _ => 0) a a, [a], [a], [], []⟩

/-- `_cco_spawn` (coroutine.h 323-329), the allocator returning `a`; none if `fb` is not an allocated
fiber. -/
def spawn (s : Ring) (fb a : Nat) : Option Ring := do
  guard (fb ∈ s.live)
  if s.next fb = 0 then some { s with next := setNext s.next fb fb }
  else some { s with next := setNext (setNext s.next a (s.next fb)) fb a, live := a :: s.live, made := a :: s.made }

/-- The spawns of one resume, in order. -/
def spawns : Ring → List (Nat × Nat) → Option Ring
  | s, [] => some s
  | s, x :: xs => (spawn s x.1 x.2).bind fun s => spawns s xs

/-- `cco_resume_next` behind the call of `cco_resume_current` (coroutine.h 309-315). -/
def afterResume (s : Ring) (prev curr : Nat) (done : Bool) : Ring × Nat :=
  if done then
    let c := if curr = prev then 0 else s.next curr
    ({ s with next := setNext s.next prev c, live := s.live.erase curr, freed := curr :: s.freed }, c)
  else (s, curr)

/-- `cco_resume_next` (coroutine.h 305-316); none if it dereferences a pointer that is not an
allocated fiber. -/
def resumeNext (s : Ring) (prev : Nat) (e : Ev) : Option (Ring × Nat) := do
  guard (prev ∈ s.live)
  let curr := s.next prev
  guard (curr ∈ s.live)
  let s2 ← spawns { s with resumed := s.resumed ++ [curr] } e.spawns
  some (afterResume s2 prev curr e.done)

/-- `cco_run_fiber` (coroutine.h 256-257): until NULL is returned, or the events are used up. -/
def runFiber : Ring → Nat → List Ev → Option (Ring × Nat)
  | s, it, [] => some (s, it)
  | s, it, e :: es => if it = 0 then some (s, 0) else (resumeNext s it e).bind fun r => runFiber r.1 r.2 es

end Verif.Coro
