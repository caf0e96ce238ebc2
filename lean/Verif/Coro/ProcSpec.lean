import Verif.Coro.Proc
/-
What tasks mean: an interpreter for ordinary procedures with exceptions. Awaiting a task is calling it; an
error leaves the procedure, whose cleanup is executed, and arrives in the caller at its call; the caller's
cleanup is executed, and either the error goes on to its caller, or it is recovered and the caller goes on
behind the call. No labels, no state variables, no chain of tasks. `w` is what others do during the turns
waited for.
-/
namespace Verif.Coro.Proc.Spec
variable {σ : Type}

/-- How code ends: as usual, by `break`, `continue`, by returning with an error or 0, by recovering; the whole
procedure is over with an error or 0; it waits for a turn that does not come; it recovers from an error it
did not get from a procedure it called. -/
inductive Out where
  | norm | brk | cont
  | ret (e : Int)
  | recovers
  | over (e : Int)
  | susp
  | wild
deriving DecidableEq

/-- The data, the turns left and how the code ended. -/
abbrev Res (σ : Type) := σ × List (σ → σ) × Out

/-- An interpreter of statements: procedure, statement, error, data, turns. -/
abbrev Ev (σ : Type) := Nat → Stmt σ → Int → σ → List (σ → σ) → Option (Res σ)

/-- The cleanup of a procedure. -/
def cleanup (P : Nat → Task σ) (ev : Ev σ) (r : Nat) (e : Int) (d : σ) (w : List (σ → σ)) : Option (Res σ) :=
  (ev r (P r).fin e d w).bind fun x =>
    match x.2.2 with
    | .norm | .brk | .cont => some (x.1, x.2.1, .over e)
    | .ret e' => some (x.1, x.2.1, .over e')
    | o => some (x.1, x.2.1, o)

/-- A procedure: its body, then its cleanup. -/
def proc (P : Nat → Task σ) (ev : Ev σ) (r : Nat) (d : σ) (w : List (σ → σ)) : Option (Res σ) :=
  (ev r (P r).body 0 d w).bind fun x =>
    match x.2.2 with
    | .norm => (cleanup P ev r 0 x.1 x.2.1).bind fun y => if y.2.2 = .recovers then some (y.1, y.2.1, .wild) else some y
    | .ret e => (cleanup P ev r e x.1 x.2.1).bind fun y => if y.2.2 = .recovers then some (y.1, y.2.1, .wild) else some y
    | .brk | .cont => some (x.1, x.2.1, .over 0)
    | o => some (x.1, x.2.1, o)

/-- Statements, for at most `f` nested evaluations. -/
def ev (P : Nat → Task σ) : Nat → Ev σ
  | 0 => fun _ _ _ _ _ => none
  | f + 1 => fun r s e d w =>
    match s with
    | .act h => some (h d, w, .norm)
    | .seq a b => (ev P f r a e d w).bind fun x => if x.2.2 = .norm then ev P f r b e x.1 x.2.1 else some x
    | .ite c a b => ev P f r (if c e d then a else b) e d w
    | .loop c a =>
      if c e d then
        (ev P f r a e d w).bind fun x =>
          match x.2.2 with
          | .norm | .cont => ev P f r (.loop c a) e x.1 x.2.1
          | .brk => some (x.1, x.2.1, .norm)
          | o => some (x.1, x.2.1, o)
      else some (d, w, .norm)
    | .brk => some (d, w, .brk)
    | .cont => some (d, w, .cont)
    | .ret => some (d, w, .ret e)
    | .throw e' => some (d, w, .ret e')
    | .recover => some (d, w, .recovers)
    | .yield _ _ =>
      match w with
      | [] => some (d, [], .susp)
      | g :: w => some (g d, w, .norm)
    | .await _ c =>
      match w with
      | [] => some (d, [], .susp)
      | g :: w =>
        (proc P (ev P f) (c d) (g d) w).bind fun x =>
          match x.2.2 with
          | .over e' =>
            if e' = 0 then
              match x.2.1 with
              | [] => some (x.1, [], .susp)
              | g :: w => some (g x.1, w, .norm)
            else
              (cleanup P (ev P f) r e' x.1 x.2.1).bind fun y => if y.2.2 = .recovers then some (y.1, y.2.1, .norm) else some y
          | o => some (x.1, x.2.1, o)

/-- The procedure `r` called with data `d`, the turns being `w`. -/
def call (P : Nat → Task σ) (f : Nat) (r : Nat) (d : σ) (w : List (σ → σ)) : Option (Res σ) := proc P (ev P f) r d w

/-- The lines of the macros with a `case` label. -/
def lines : Stmt σ → List Nat
  | .seq a b | .ite _ a b => lines a ++ lines b
  | .loop _ a => lines a
  | .yield n _ | .await n _ => [n]
  | _ => []

/-- No `cco_recover_error`, and no `cco_yield_v(0)`, which looks like the end of the task. -/
def tame : Stmt σ → Bool
  | .seq a b | .ite _ a b => tame a && tame b
  | .loop _ a => tame a
  | .recover => false
  | .yield _ v => v != 0
  | _ => true

/-- The compiler accepts the function; errors are recovered only behind `cco_finally`; the code there does
not suspend. -/
structure Written (p : Task σ) : Prop where
  lines : (lines p.body).Nodup
  pos : ∀ n ∈ Spec.lines p.body, 0 < n
  fin : Spec.lines p.fin = []
  tame : tame p.body = true

/-- The state of the fiber is the outcome of the procedure. -/
def Agree : Cfg σ × List (σ → σ) → Res σ → Prop
  | (.done d, w), (d', w', o) => d = d' ∧ w = w' ∧ o = .over 0
  | (.abort e d, w), (d', w', o) => d = d' ∧ w = w' ∧ o = .over e ∧ e ≠ 0
  | (.pause _ _ d, w), (d', w', o) => d = d' ∧ w = [] ∧ w' = [] ∧ o = .susp
  | _, _ => False

end Verif.Coro.Proc.Spec
