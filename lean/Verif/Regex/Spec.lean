/-
What a regular expression means, written independently of the matcher. The atoms (literals, classes,
assertions) are abstract here: `R a i j` says that the atom `a` matches the text between the positions
`i` and `j`.
-/
namespace Verif.Regex.Spec

/-- Regular expressions; `grp k e` is the `k`-th parenthesised group. -/
inductive Re (α : Type)
  | one (a : α)
  | grp (k : Nat) (e : Re α)
  | cat (a b : Re α)
  | alt (a b : Re α)
  | star (e : Re α)
  | plus (e : Re α)
  | opt (e : Re α)
deriving DecidableEq, Repr

/-- The operand that every match begins with, where that is a fixed one that is not inside a group. -/
def Re.head {α : Type} : Re α → Option α
  | .one a => some a
  | .cat a _ => a.head
  | .plus e => e.head
  | _ => none

/-- The symbols of a pattern. -/
inductive Tok (α : Type)
  | one (a : α) | lpar | rpar | bar | star | plus | opt
deriving DecidableEq, Repr

/-- The grammar. `G l n ts e n'`: the symbols `ts` are the expression `e` on level `l` (0: alternatives,
1: a sequence, 2: an item with its postfix operators); there are `n` left parentheses before them and
`n'` before what follows, so that the groups are numbered in the order of their left parentheses. -/
inductive G {α : Type} : Nat → Nat → List (Tok α) → Re α → Nat → Prop
  | one {n a} : G 2 n [.one a] (.one a) n
  | grp {n n' ts e} : G 0 (n + 1) ts e n' → G 2 n (.lpar :: (ts ++ [.rpar])) (.grp (n + 1) e) n'
  | star {n n' ts e} : G 2 n ts e n' → G 2 n (ts ++ [.star]) (.star e) n'
  | plus {n n' ts e} : G 2 n ts e n' → G 2 n (ts ++ [.plus]) (.plus e) n'
  | opt {n n' ts e} : G 2 n ts e n' → G 2 n (ts ++ [.opt]) (.opt e) n'
  | item {n n' ts e} : G 2 n ts e n' → G 1 n ts e n'
  | cat {n n' n'' ts us a b} : G 1 n ts a n' → G 2 n' us b n'' → G 1 n (ts ++ us) (.cat a b) n''
  | seq {n n' ts e} : G 1 n ts e n' → G 0 n ts e n'
  | alt {n n' n'' ts us a b} : G 0 n ts a n' → G 1 n' us b n'' → G 0 n (ts ++ .bar :: us) (.alt a b) n''

/-- `e` matches the text from `i` to `j`. -/
inductive Matches {α : Type} (R : α → Nat → Nat → Prop) : Re α → Nat → Nat → Prop
  | one {a i j} : R a i j → Matches R (.one a) i j
  | grp {k e i j} : Matches R e i j → Matches R (.grp k e) i j
  | cat {a b i j l} : Matches R a i j → Matches R b j l → Matches R (.cat a b) i l
  | altL {a b i j} : Matches R a i j → Matches R (.alt a b) i j
  | altR {a b i j} : Matches R b i j → Matches R (.alt a b) i j
  | starNil {e i} : Matches R (.star e) i i
  | starCons {e i j l} : Matches R e i j → Matches R (.star e) j l → Matches R (.star e) i l
  | plus {e i j l} : Matches R e i j → Matches R (.star e) j l → Matches R (.plus e) i l
  | optNil {e i} : Matches R (.opt e) i i
  | opt {e i j} : Matches R e i j → Matches R (.opt e) i j

/-- What the groups have matched: where the last match of a group begins, and its length. -/
abbrev Groups := Nat → Option (Nat × Nat)

def Groups.set (g : Groups) (k i j : Nat) : Groups := fun x => if x = k then some (i, j - i) else g x

/-- `e` matches the text from `i` to `j`, and thereby the groups change from `g` to `g'`. -/
inductive Parse {α : Type} (R : α → Nat → Nat → Prop) : Re α → Nat → Groups → Nat → Groups → Prop
  | one {a i j g} : R a i j → Parse R (.one a) i g j g
  | grp {k e i j g g'} : Parse R e i g j g' → Parse R (.grp k e) i g j (g'.set k i j)
  | cat {a b i j l g g' g''} : Parse R a i g j g' → Parse R b j g' l g'' → Parse R (.cat a b) i g l g''
  | altL {a b i j g g'} : Parse R a i g j g' → Parse R (.alt a b) i g j g'
  | altR {a b i j g g'} : Parse R b i g j g' → Parse R (.alt a b) i g j g'
  | starNil {e i g} : Parse R (.star e) i g i g
  | starCons {e i j l g g' g''} : Parse R e i g j g' → Parse R (.star e) j g' l g'' → Parse R (.star e) i g l g''
  | plus {e i j l g g' g''} : Parse R e i g j g' → Parse R (.star e) j g' l g'' → Parse R (.plus e) i g l g''
  | optNil {e i g} : Parse R (.opt e) i g i g
  | opt {e i j g g'} : Parse R e i g j g' → Parse R (.opt e) i g j g'

end Verif.Regex.Spec
