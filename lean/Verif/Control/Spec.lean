import Verif.Control.Model
/- What the control-flow macros are meant to do, without loops. -/
namespace Verif.Control.Spec
open Verif.Control

variable {σ : Type}

/-- A statement left by `break` or `continue` has ended as far as its surroundings are concerned. -/
def settle : Out × σ → Out × σ
  | (.ret, s) => (.ret, s)
  | (_, s) => (.norm, s)

/-- A scope: acquire; if that succeeded, run the body and release. A `break` or `return` in the body
leaves without releasing. -/
def scope (init : σ → Option σ) (cond : σ → Bool) (deinit : σ → Option σ) (body : Stmt σ) : Stmt σ := fun s =>
  (init s).bind fun s =>
    if cond s then (body s).bind fun e =>
      match e.1 with
      | .norm | .cont => (deinit e.2).map (Out.norm, ·)
      | .brk => some (.norm, e.2)
      | .ret => some (.ret, e.2)
    else some (.norm, s)

/-- One statement per element, in order, until one breaks or returns. -/
def forEach {ε : Type} (body : ε → Stmt σ) : List ε → Stmt σ
  | [], s => some (.norm, s)
  | e :: l, s => (body e s).bind fun r =>
    match r.1 with
    | .brk => some (.norm, r.2)
    | .ret => some (.ret, r.2)
    | _ => forEach body l r.2

/-- The tag of an arm. -/
def tagOf : Arm σ → Option Int
  | .is1 t _ | .is2 t _ | .orIs t _ => some t
  | .other _ => none

/-- The user's statement of an arm. -/
def bodyOf : Arm σ → Stmt σ
  | .is1 _ b | .is2 _ b | .orIs _ b | .other b => b

/-- Plain matching: every arm has its own body. -/
def Plain (arms : List (Arm σ)) : Prop := ∀ a ∈ arms, ∀ t b, a ≠ .orIs t b

/-- The arm for a tag: the one with that tag, else the `c_otherwise`. -/
def armFor (arms : List (Arm σ)) (t : Int) : Option (Arm σ) :=
  (arms.find? fun a => tagOf a == some t).or (arms.find? fun a => tagOf a == none)

/-- Whether an arm is joined to the one before it. -/
def isOr : Arm σ → Bool
  | .orIs _ _ => true
  | _ => false

/-- A group of alternatives: the arms from a given one on that are joined by `c_or_is`. -/
def group : List (Arm σ) → List (Arm σ)
  | [] => []
  | a :: l => a :: l.takeWhile isOr

/-- The bodies of a group one after the other; `break` or `continue` leaves the group (in an arm that
binds a variable: only the arm). -/
def runGroup : List (Arm σ) → Stmt σ
  | [], s => some (.norm, s)
  | a :: l, s => (bodyOf a s).bind fun e =>
    match a, e.1 with
    | _, .norm => runGroup l e.2
    | _, .ret => some (.ret, e.2)
    | .is2 _ _, _ => runGroup l e.2
    | _, _ => some (.norm, e.2)

/-- The arms from the one for a tag on. -/
def armsFrom (arms : List (Arm σ)) (t : Int) : List (Arm σ) :=
  match arms.dropWhile fun a => tagOf a != some t with
  | [] => arms.dropWhile fun a => tagOf a != none
  | l => l

/-- A log of acquired and released resources. -/
inductive Ev (ρ : Type) where
  | acquired (r : ρ) | released (r : ρ) | work
deriving DecidableEq, Repr

/-- Nested scopes over a list of resources, each appending to a log; `ok r` says whether acquiring `r`
succeeds; `body` is the innermost statement. -/
def nest {ρ : Type} (ok : ρ → Bool) (body : Stmt (List (Ev ρ))) : List ρ → Stmt (List (Ev ρ))
  | [] => body
  | r :: rs => cWith (fun l => some (l ++ [.acquired r])) (fun _ => ok r) (fun l => some (l ++ [.released r]))
      (nest ok body rs)

end Verif.Control.Spec
