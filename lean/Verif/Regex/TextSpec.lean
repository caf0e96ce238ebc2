import Verif.Regex.Exec
import Verif.Regex.Spec
import Verif.Utf8.Spec
/-
What the operands of a regular expression match, on a text given as a list of code points; `i` and `j`
are positions between characters. This is independent of the matcher and of the encoding; `\B` is left out.
-/
namespace Verif.Regex.Spec
open Verif.Utf8 (casefold)

/-- One character with the property `p`. -/
def Char1 (cs : List Nat) (p : Nat → Prop) (i j : Nat) : Prop := ∃ c, cs[i]? = some c ∧ p c ∧ j = i + 1

/-- The character `r` is the literal `c`, or in the class that the code `c` stands for. -/
def Lit (grp : Nat → Nat → Bool) (c r : Nat) : Prop := if isCode c then grp c r = true else r = c

/-- The character `r` is in one of the ranges, or in one of the classes given by a code. -/
def InClass (grp : Nat → Nat → Bool) (spans : List (Nat × Nat)) (r : Nat) : Prop :=
  ∃ p ∈ spans, (p.1 ≤ r ∧ r ≤ p.2) ∨ (p.1 = p.2 ∧ isCode p.1 = true ∧ grp p.1 r = true)

/-- The class `\w` (`UTF_wr`, cregex_prv.c 125-166). -/
def wordCode : Nat := 0x810002c

/-- There is a word character at the position `i`. -/
def wordAt (word : Nat → Bool) (cs : List Nat) (i : Nat) : Bool := (cs[i]?).any word

/-- A boundary between a word character and another one or the edge of the text. -/
def Bound (word : Nat → Bool) (cs : List Nat) (i : Nat) : Prop := (decide (0 < i) && wordAt word cs (i - 1)) ≠ wordAt word cs i

/-- What an operand matches; `ic` is the flag for matching without regard to case. -/
def Atom (ic : Bool) (grp : Nat → Nat → Bool) (cs : List Nat) : Op → Nat → Nat → Prop
  | .rune c, i, j => Char1 cs (Lit grp c) i j
  | .irune c, i, j => Char1 cs (fun r => Lit grp c (casefold r)) i j
  | .any, i, j => Char1 cs (· ≠ 10) i j
  | .anynl, i, j => Char1 cs (fun _ => True) i j
  | .cls neg spans, i, j => Char1 cs (fun r => (InClass grp spans (if ic then casefold r else r)) ↔ neg = false) i j
  | .bol, i, j => j = i ∧ (i = 0 ∨ cs[i - 1]? = some 10)
  | .bos, i, j => j = i ∧ i = 0
  | .eol, i, j => j = i ∧ (i = cs.length ∨ cs[i]? = some 10)
  | .eos, i, j => j = i ∧ i = cs.length
  | .eoz, i, j => j = i ∧ (i = cs.length ∨ (cs[i]? = some 10 ∧ i + 1 = cs.length))
  | .wbound, i, j => j = i ∧ Bound (grp wordCode) cs i
  | .cased, i, j | .icase, i, j => j = i ∧ True
  | _, _, _ => False

/-- The operands described by `Atom`; literals, and the changes of the mode, as the flag says. -/
def plainOp (ic : Bool) : Op → Bool
  | .rune _ | .cased => !ic
  | .irune _ | .icase => ic
  | .any | .anynl | .cls _ _ | .bol | .bos | .eol | .eos | .eoz | .wbound => true
  | _ => false

end Verif.Regex.Spec

namespace Verif.Regex
open Verif.Utf8 (Byte)
open Verif.Utf8.Spec (text Text)
open Spec (Groups)

/-- The memory `E.m` holds the text `cs` behind `pre`; it ends with the terminator, or at `E.eol`, where
there still are bytes. -/
structure Input (E : Env) (cs : List Nat) (pre rest : List Byte) : Prop where
  txt : Text cs
  mem : E.m = pre ++ text cs ++ rest
  bol : E.bol = pre.length
  stop : (E.eol = none ∧ ∃ junk, rest = 0#8 :: junk) ∨
    (E.eol = some (pre.length + (text cs).length) ∧ ∃ r n, rune E.m (pre.length + (text cs).length) = some (r, n))

/-- The edges of the text are as `\b` takes them: it always matches at the beginning, always at the end of
a view and never at a terminator. And it uses the same test as `\w` (cregex_prv.c 964, 1112). -/
structure Edges (E : Env) (cs : List Nat) : Prop where
  word : ∀ r, E.word r = E.grp Spec.wordCode r
  first : cs.head?.any (E.grp Spec.wordCode) = true
  last : cs.getLast?.any (E.grp Spec.wordCode) = E.eol.isSome

/-- The offset of the character at position `i`. -/
def off (pre : List Byte) (cs : List Nat) (i : Nat) : Nat := pre.length + (text (cs.take i)).length

/-- Groups as offsets and sizes in bytes. -/
def mapG (pre : List Byte) (cs : List Nat) (g : Groups) : Groups := fun k => (g k).map fun p => (off pre cs p.1, off pre cs (p.1 + p.2) - off pre cs p.1)

/-- The span reported for a group. -/
def subOf : Option (Nat × Nat) → Sub
  | none => ⟨none, 0⟩
  | some (b, n) => ⟨some b, n⟩

end Verif.Regex
