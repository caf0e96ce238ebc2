import Verif.Regex.Spec
/-
How many threads the matcher may need for an expression, computed from the expression alone. `eats a`
says whether the operand `a` stands for a character (and is not an assertion as `^`).
-/
namespace Verif.Regex.Spec

section
variable {α : Type} (eats : α → Bool)

/-- Whether the expression may be passed without a character. -/
def Re.null : Re α → Bool
  | .one a => !eats a
  | .grp _ e => e.null
  | .cat a b => a.null && b.null
  | .alt a b => a.null || b.null
  | .star _ => true
  | .plus e => e.null
  | .opt _ => true

/-- The alternatives met on the way from the beginning of the expression to the next characters, when
there are `c` of them behind it. -/
def Re.forks : Re α → Nat → Nat
  | .one a, c => if eats a then 0 else c
  | .grp _ e, c => e.forks c
  | .cat a b, c => a.forks (b.forks c)
  | .alt a b, c => b.forks c + a.forks c + 1
  | .star e, c => c + e.forks 0 + 1
  | .plus e, _ => e.forks 0
  | .opt e, c => c + e.forks c + 1

/-- Whether a character may be the last thing in the expression. (A group ends with its parenthesis, a
repetition with the decision to repeat.) -/
def Re.open : Re α → Bool
  | .one a => eats a
  | .grp _ _ => false
  | .cat _ b => b.open
  | .alt a b => a.open || b.open
  | .star _ => false
  | .plus _ => false
  | .opt e => e.open

/-- For each place inside the expression that is reached over a character, the alternatives met from there. -/
def Re.places : Re α → Nat → List Nat
  | .one _, _ => []
  | .grp _ e, c => e.places c ++ (if e.open eats then [c] else [])
  | .cat a b, c => a.places (b.forks eats c) ++ (if a.open eats then [b.forks eats c] else []) ++ b.places c
  | .alt a b, c => a.places c ++ b.places c
  | .star e, c => e.places (c + e.forks eats 0 + 1) ++ (if e.open eats then [c + e.forks eats 0 + 1] else [])
  | .plus e, c => e.places (c + e.forks eats 0 + 1) ++ (if e.open eats then [c + e.forks eats 0 + 1] else [])
  | .opt e, c => e.places c

/-- Repetitions and options. -/
def Re.post : Re α → Bool
  | .star _ | .plus _ | .opt _ => true
  | _ => false

/-- No repetition of a repetition, as in `a*?`. -/
def Re.single : Re α → Bool
  | .one _ => true
  | .grp _ e => e.single
  | .cat a b => a.single && b.single
  | .alt a b => a.single && b.single
  | .star e => !e.post && e.single
  | .plus e => !e.post && e.single
  | .opt e => !e.post && e.single

/-- Only expressions that need a character are repeated. -/
def Re.strict : Re α → Bool
  | .one _ => true
  | .grp _ e => e.strict
  | .cat a b => a.strict && b.strict
  | .alt a b => a.strict && b.strict
  | .star e => !e.null eats && e.strict
  | .plus e => !e.null eats && e.strict
  | .opt e => e.strict

/-- The places of the whole expression. -/
def Re.all (e : Re α) : List Nat := e.places eats 0 ++ (if e.open eats then [0] else [])

/-- The expression fits into the thread lists of the matcher: all threads into the large lists, of 100,
and it is not possible that the small lists, of 10, are filled up without that being noticed. -/
def Re.fits (e : Re α) : Bool :=
  e.single && e.strict eats && decide ((e.all eats).length + (e.all eats).sum + e.forks eats 0 ≤ 96) &&
    (decide ((e.all eats).length ≤ 6) || decide ((e.all eats).sum + e.forks eats 0 ≤ 1))

end

end Verif.Regex.Spec
