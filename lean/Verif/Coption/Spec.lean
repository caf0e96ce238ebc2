import Verif.Coption.Model
/- Specification of option parsing: one pass over the arguments, left to right. -/
namespace Verif.Coption.Spec

/-- What the program sees of one call: the value returned, `opt.opt` and `opt.arg`. -/
abbrev Event := Int × Int × Option Str

/-- An argument of the form `-x...`; everything else (also `-` alone) is an operand. -/
def isOption : Str → Bool
  | c :: _ :: _ => c == dash
  | _ => false

/-- What the colons behind a letter mean. -/
def colons : Str → Kind
  | y :: z :: _ => if y = colon then (if z = colon then .optional else .required) else .no
  | [y] => if y = colon then .required else .no
  | [] => .no

/-- What a letter stands for in a specification such as `"xy:z::"`. -/
def kindOf (c : Nat) : Str → Option Kind
  | [] => none
  | x :: xs => if x = c then some (colons xs) else kindOf c xs

/-- An option with value `v` that takes an argument: the one given with it, or else the next argument
(an optional one must not look like an option); whether the next one is taken. -/
def withArg (k : Kind) (v : Int) (here : Option Str) (rest : List Str) : Event × Bool :=
  match here with
  | some x => ((v, v, some x), false)
  | none =>
    match rest with
    | [] => (((if k = .required then (colon : Int) else v), v, none), false)
    | x :: _ =>
      if k = .required ∨ x.head? ≠ some dash then ((v, v, some x), true)
      else ((v, v, none), false)

/-- The letters of one argument `-abc`, with the arguments behind it; whether the next one is taken. -/
def letters (shorts : Str) (rest : List Str) : Str → List Event × Bool
  | [] => ([], false)
  | c :: cs =>
    match kindOf c shorts with
    | none => ((quest, (c : Int), none) :: (letters shorts rest cs).1, (letters shorts rest cs).2)
    | some .no => (((c : Int), (c : Int), none) :: (letters shorts rest cs).1, (letters shorts rest cs).2)
    | some k => ([(withArg k c (if cs = [] then none else some cs) rest).1], (withArg k c (if cs = [] then none else some cs) rest).2)

/-- An argument of the form `--name...`. -/
def isLong : Str → Bool
  | c :: d :: _ :: _ => c == dash && d == dash
  | _ => false

/-- The name in `--name` or `--name=value`. -/
def nameOf (a : Str) : Str := (a.drop 2).takeWhile (· ≠ equals)

/-- The value in `--name=value`. -/
def valueOf (a : Str) : Option Str :=
  match (a.drop 2).dropWhile (· ≠ equals) with
  | [] => none
  | _ :: v => some v

/-- The long options with this name, and those with a longer name beginning like it. -/
def exact (ls : List Long) (n : Str) : List Long := ls.filter (fun l => l.name == n)
def longer (ls : List Long) (n : Str) : List Long := ls.filter (fun l => n.isPrefixOf l.name && l.name != n)

/-- An abbreviation of more than one long option, or the name of more than one. -/
def Ambiguous (ls : List Long) (a : Str) : Prop :=
  (exact ls (nameOf a)).length > 1 ∨ (exact ls (nameOf a) = [] ∧ (longer ls (nameOf a)).length > 1)

/-- The long option meant, if there is exactly one. -/
def resolve (ls : List Long) (a : Str) : Option Long :=
  match exact ls (nameOf a) with
  | [l] => some l
  | _ :: _ :: _ => none
  | [] =>
    match longer ls (nameOf a) with
    | [l] => some l
    | _ => none

/-- A long option with the arguments behind it; whether the next one is taken. -/
def long (longs : Option (List Long)) (rest : List Str) (a : Str) : Event × Bool :=
  match longs.bind (fun ls => resolve ls a) with
  | none => ((quest, 0, none), false)
  | some l =>
    if l.type = .no then ((l.val, l.val, none), false) else withArg l.type l.val (valueOf a) rest

/-- The whole argument list: the events, the options with their arguments, and the operands. `taken`
says whether the first argument belongs to the option in front of it. -/
def parse (shorts : Option Str) (longs : Option (List Long)) : Bool → List Str → List Event × List Str × List Str
  | _, [] => ([], [], [])
  | true, a :: rest =>
    let r := parse shorts longs false rest
    (r.1, a :: r.2.1, r.2.2)
  | false, a :: rest =>
    if ¬ isOption a then
      -- an operand; with `+` parsing ends here
      if posix shorts then ([], [], a :: rest)
      else
        let r := parse shorts longs false rest
        (r.1, r.2.1, a :: r.2.2)
    else if a = [dash, dash] then ([], [a], rest)
    else if a[1]? = some dash then
      let e := long longs rest a
      let r := parse shorts longs e.2 rest
      (e.1 :: r.1, a :: r.2.1, r.2.2)
    else
      match shorts with
      | none => ([], [], a :: rest)
      | some s =>
        let e := letters s rest (a.drop 1)
        let r := parse shorts longs e.2 rest
        (e.1 ++ r.1, a :: r.2.1, r.2.2)

end Verif.Coption.Spec
