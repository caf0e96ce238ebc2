import Verif.Utf8.Model
/- The UTF-8 encoding form as defined by the Unicode standard (table 3-6), independent of the
code under study. -/
namespace Verif.Utf8.Spec

/-- Unicode scalar values. -/
def Scalar (c : Nat) : Prop := c < 0xD800 ∨ (0xE000 ≤ c ∧ c < 0x110000)

instance (c : Nat) : Decidable (Scalar c) := inferInstanceAs (Decidable (_ ∨ _))

/-- The well-formed byte sequence of a scalar value. -/
def enc (c : Nat) : List Byte :=
  if c < 0x80 then [BitVec.ofNat 8 c]
  else if c < 0x800 then [BitVec.ofNat 8 (0xC0 + c / 64), BitVec.ofNat 8 (0x80 + c % 64)]
  else if c < 0x10000 then
    [BitVec.ofNat 8 (0xE0 + c / 4096), BitVec.ofNat 8 (0x80 + c / 64 % 64), BitVec.ofNat 8 (0x80 + c % 64)]
  else
    [BitVec.ofNat 8 (0xF0 + c / 262144), BitVec.ofNat 8 (0x80 + c / 4096 % 64),
     BitVec.ofNat 8 (0x80 + c / 64 % 64), BitVec.ofNat 8 (0x80 + c % 64)]

/-- The UTF-8 form of a text. -/
def text (cs : List Nat) : List Byte := cs.flatMap enc

/-- A text of scalar values other than U+0000. -/
def Text (cs : List Nat) : Prop := ∀ c ∈ cs, Scalar c ∧ c ≠ 0

instance (cs : List Nat) : Decidable (Text cs) := inferInstanceAs (Decidable (∀ c ∈ cs, _))

/-- Lexicographic comparison: negative, zero or positive. -/
def lex : List Nat → List Nat → Int
  | [], [] => 0
  | [], _ :: _ => -1
  | _ :: _, [] => 1
  | a :: as, b :: bs => if a < b then -1 else if b < a then 1 else lex as bs

end Verif.Utf8.Spec
