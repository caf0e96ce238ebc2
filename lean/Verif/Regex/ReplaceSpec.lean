import Verif.Regex.Syntax
import Verif.Regex.TextSpec
/-
What replacing means, written independently of the code: the text that stands for a match, and the order
in which matches are replaced.
-/
namespace Verif.Regex.Spec
open Verif.Utf8 (Byte)
open Verif.Utf8.Spec (text)

/-- The parts of a replacement text: a byte, `$$`, `$3`, `$12;`. -/
inductive Piece where
  | chr (b : Byte)
  | dollar
  | ref (d : Nat)
  | ref2 (a b : Nat)
deriving DecidableEq, Repr

/-- A digit as a character. -/
def digit (d : Nat) : Byte := BitVec.ofNat 8 (48 + d)

def Piece.show : Piece → List Byte
  | .chr b => [b]
  | .dollar => [36#8, 36#8]
  | .ref d => [36#8, digit d]
  | .ref2 a b => [36#8, digit a, digit b, 59#8]

/-- What a piece is, before the text `r`: a `$` by itself is before something else than a digit or `$`;
`$3` is not before a digit and a semicolon. -/
def Piece.ok (r : List Byte) : Piece → Prop
  | .chr b => b ≠ 0#8 ∧ (b = 36#8 → r.head? ≠ some 36#8 ∧ ∀ d ≤ 9, r.head? ≠ some (digit d))
  | .dollar => True
  | .ref d => d ≤ 9 ∧ ∀ c ≤ 9, ∀ r', r ≠ digit c :: 59#8 :: r'
  | .ref2 a b => a ≤ 9 ∧ b ≤ 9

/-- How a replacement text is read. -/
inductive Reads : List Byte → List Piece → Prop
  | nil : Reads [] []
  | cons {p r ps} : p.ok r → Reads r ps → Reads (p.show ++ r) (p :: ps)

/-- What a piece stands for; there are `n` groups, with the whole match as group 0. -/
def Piece.val (n : Nat) (grp : Nat → List Byte) : Piece → List Byte
  | .chr b => [b]
  | .dollar => [36#8]
  | .ref d => if d < n then grp d else []
  | .ref2 a b => if a * 10 + b < n then grp (a * 10 + b) else []

/-- The text of a replacement. -/
def value (n : Nat) (grp : Nat → List Byte) (ps : List Piece) : List Byte := ps.flatMap (Piece.val n grp)

/-- The text of group `k` in a match from `i` to `j`. -/
def groupText (cs : List Nat) (i j : Nat) (g : Groups) (k : Nat) : List Nat :=
  if k = 0 then (cs.drop i).take (j - i)
  else match g k with
    | none => []
    | some (a, n) => (cs.drop a).take n

/-- The leftmost match at or behind `k`, and of those the longest. -/
def Best {α : Type} (R : α → Nat → Nat → Prop) (e : Re α) (len k i j : Nat) (g : Groups) : Prop :=
  k ≤ i ∧ i ≤ j ∧ j ≤ len ∧ Parse R e i (fun _ => none) j g ∧ ∀ i' j', k ≤ i' → i' ≤ len → Matches R e i' j' → i ≤ i' ∧ (i' = i → j' ≤ j)

/-- There is no match at or behind `k`. -/
def NoMatch {α : Type} (R : α → Nat → Nat → Prop) (e : Re α) (len k : Nat) : Prop := ∀ i j, k ≤ i → i ≤ len → ¬ Matches R e i j

section
variable {α : Type} (R : List Nat → α → Nat → Nat → Prop) (e : Re α)

/-- Replacing at most `c` matches in the text `cs`. `sub` is what stands for a match, of which the groups
are given; `keep` is what happens to the other text. What is behind a match is a text of its own. -/
inductive Replaced (sub : (Nat → List Byte) → List Byte) (keep : List Byte → List Byte) : Nat → List Nat → List Byte → Prop
  | stop {cs} : Replaced sub keep 0 cs (keep (text cs))
  | none {c cs} : NoMatch (R cs) e cs.length 0 → Replaced sub keep (c + 1) cs (keep (text cs))
  | step {c cs i j g out} : Best (R cs) e cs.length 0 i j g → Replaced sub keep c (cs.drop j) out →
      Replaced sub keep (c + 1) cs (keep (text (cs.take i)) ++ sub (fun k => text (groupText cs i j g k)) ++ out)

/-- Going through the matches in the text `cs` from `k` on: their beginnings, ends and groups. It ends with
the first match that is empty, or where there is none. -/
inductive Walk (cs : List Nat) : Nat → List (Nat × Nat × Groups) → Prop
  | none {k} : NoMatch (R cs) e cs.length k → Walk cs k []
  | empty {k i g} : Best (R cs) e cs.length k i i g → Walk cs k []
  | step {k i j g l} : Best (R cs) e cs.length k i j g → i < j → Walk cs j l → Walk cs k ((i, j, g) :: l)

end

end Verif.Regex.Spec
