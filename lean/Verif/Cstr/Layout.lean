import Verif.Cstr.Model
import Mathlib.Tactic.Common
/-
The union encoding of a string: 24 bytes, either characters with the size in the last byte, or
three 64-bit words (data pointer, size, complemented capacity). types.h:86-90, cstr_prv.h:38-59.
-/
namespace Verif.Cstr
open Verif.Utf8

/-- The 8 bytes of a word in memory order, first byte at the lowest address. -/
def wordBytes (little : Bool) (w : BitVec 64) : List Byte :=
  let le := (List.range 8).map fun i => w.extractLsb' (8 * i) 8
  if little then le else le.reverse

/-- cstr_prv.h:45 `byte_rotl_`. -/
def byteRotl (x : BitVec 64) (b : Nat) : BitVec 64 := x <<< (b * 8) ||| x >>> ((8 - b) * 8)

/-- cstr_prv.h:47, 50 `cstr_l_set_cap`. -/
def setCap (little : Bool) (cap : BitVec 64) : BitVec 64 :=
  if little then ~~~ cap else ~~~ byteRotl cap 1

/-- cstr_prv.h:46, 49 `cstr_l_cap`. -/
def lCap (little : Bool) (ncap : BitVec 64) : BitVec 64 :=
  if little then ~~~ ncap else ~~~ byteRotl ncap 7

/-- types.h:89: the object in its long form. -/
def lonObj (little : Bool) (data size cap : BitVec 64) : List Byte :=
  wordBytes little data ++ wordBytes little size ++ wordBytes little (setCap little cap)

/-- cstr_prv.h:57 `cstr_is_long`. -/
def isLong (obj : List Byte) : Option Bool := (obj[sLast]?).map fun b => (b &&& 128#8) != 0#8

end Verif.Cstr
