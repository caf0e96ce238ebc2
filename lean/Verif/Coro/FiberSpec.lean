import Verif.Coro.Fiber
/- Specification of the fiber scheduler: a round-robin list whose head is the fiber resumed last. -/
namespace Verif.Coro.Spec

/-- Put `a` behind `x`. -/
def insAfter (x a : Nat) : List Nat → List Nat
  | [] => []
  | y :: ys => if y = x then y :: a :: ys else y :: insAfter x a ys

/-- The spawns of one resume. -/
def insAll : List Nat → List (Nat × Nat) → List Nat
  | l, [] => l
  | l, x :: xs => insAll (insAfter x.1 x.2 l) xs

/-- The fiber whose turn it is: the one behind the head, or the head if it is alone. -/
def turn : List Nat → Nat
  | [] => 0
  | [p] => p
  | _ :: c :: _ => c

/-- The same circle, written from `c` on. -/
def rotTo (c : Nat) (l : List Nat) : List Nat := l.dropWhile (fun x => x != c) ++ l.takeWhile (fun x => x != c)

/-- One resume: the fiber whose turn it is becomes the head; it is removed if it has finished. -/
def step (l : List Nat) (e : Ev) : List Nat :=
  let r := rotTo (turn l) (insAll l e.spawns)
  if e.done then r.tail else r

/-- Spawns refer to fibers that exist, and the allocator returns addresses not in use. -/
def ValidSpawns : List Nat → List (Nat × Nat) → Prop
  | _, [] => True
  | l, x :: xs => x.1 ∈ l ∧ x.2 ∉ l ∧ x.2 ≠ 0 ∧ ValidSpawns (insAfter x.1 x.2 l) xs

/-- A resume that finishes its fiber spawns nothing behind the fiber in front of it (in particular, a
fiber that is alone does not spawn and finish in the same resume). -/
def NoLoss (l : List Nat) (e : Ev) : Prop := e.done = true → ∀ x ∈ e.spawns, l.head? ≠ some x.1

/-- A sequence of resumes as above. -/
def ValidRun : List Nat → List Ev → Prop
  | _, [] => True
  | l, e :: es => l ≠ [] → ValidSpawns l e.spawns ∧ NoLoss l e ∧ ValidRun (step l e) es

/-- The list after a sequence of resumes. -/
def steps : List Nat → List Ev → List Nat
  | l, [] => l
  | l, e :: es => if l = [] then [] else steps (step l e) es

/-- The fibers resumed by a sequence of resumes. -/
def turns : List Nat → List Ev → List Nat
  | _, [] => []
  | l, e :: es => if l = [] then [] else turn l :: turns (step l e) es

/-- Following `next` from `a` visits `l` and arrives at `b`. -/
def Seg (n : Nat → Nat) : Nat → List Nat → Nat → Prop
  | a, [], b => n a = b
  | a, x :: xs, b => n a = x ∧ Seg n x xs b

/-- The fibers in memory form one circle, written from its head: exactly the allocated ones; every
fiber made is allocated or was freed, once. -/
structure IsRing (s : Ring) (p : Nat) (rest : List Nat) : Prop where
  seg : Seg s.next p rest p
  nodup : (p :: rest).Nodup
  live : s.live.Perm (p :: rest)
  pos : 0 ∉ p :: rest
  made : s.made.Perm (s.live ++ s.freed)

end Verif.Coro.Spec
