import Verif.Utf8.Spec
/- Specification vocabulary for views, independent of the code. -/
namespace Verif.Csview.Spec
open Verif.Utf8

/-- White space and control characters: bytes 0 to 0x20. -/
def ctl (b : Byte) : Prop := b.toNat ≤ 0x20

/-- The bytes of a sub-view given by offset and size. -/
def part (s : List Byte) (v : Nat × Nat) : List Byte := (s.drop v.1).take v.2

/-- Strings joined with a separator. -/
def join (sep : List Byte) : List (List Byte) → List Byte
  | [] => []
  | [t] => t
  | t :: ts => t ++ sep ++ join sep ts

/-- `nd` occurs in `s` at index `i`. -/
def At (nd s : List Byte) (i : Nat) : Prop := nd <+: s.drop i

end Verif.Csview.Spec
