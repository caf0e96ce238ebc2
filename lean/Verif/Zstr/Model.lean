import Verif.Csview.Model
/-
Model of the queries on NUL-terminated strings, /repo/include/stc/zsview.h and
/repo/include/stc/priv/cstr_prv.h, that do not share their code with `csview`: the ones that use the
C library's `strstr`, the byte loop of `cstr_starts_with`, positions that can be negative, and
`utf8_offset` with the iterators' `advance`.

As in `Verif.Csview.Model` a `const char*` is the list of bytes from that address to the end of its
object; where the code can move backwards, the object is given whole with an index into it. `none` is
undefined behaviour or a failed `c_assert`.
-/
namespace Verif.Zstr
open Verif.Utf8 Verif.Csview

/-- cstr_prv.h:329-333 `cstr_starts_with`; also one comparison of the C library's `strstr`: whether
the string at `str` begins with the C string at `sub`. -/
def startsWith : List Byte → List Byte → Option Bool
  | _, [] => none
  | str, b :: sub =>
    if b = 0#8 then some true
    else match str with
      | [] => none
      | a :: str => if a = b then startsWith str sub else some false

/-- C `strstr(str, sub)`: the offset of the first occurrence (`some none`: NULL). -/
def strstrLoop (sub : List Byte) : List Byte → Nat → Option (Option Nat)
  | [], _ => none
  | a :: str, off => do
    let hit ← startsWith (a :: str) sub
    if hit then some (some off)
    else if a = 0#8 then some none
    else strstrLoop sub str (off + 1)

/-- C `strstr`. -/
def strstr (str sub : List Byte) : Option (Option Nat) := strstrLoop sub str 0

/-- zsview.h:51-54 `zsview_find`, cstr_prv.h:312-315 `cstr_find`. -/
def find (str sub : List Byte) : Option Nat := (strstr str sub).map (·.getD NPOS)

/-- zsview.h:56-57 `zsview_contains`, cstr_prv.h:317-318 `cstr_contains`. -/
def contains (str sub : List Byte) : Option Bool := (find str sub).map (· != NPOS)

/-- cstr_prv.c:95-100 `cstr_find_at`; `str` is the whole buffer of the string, so that a negative
position lies outside of it. -/
def findAt (str : List Byte) (size : Nat) (pos : Int) (sub : List Byte) : Option Nat :=
  if pos > size then some NPOS
  else if pos < 0 then none
  else (strstr (str.drop pos.toNat) sub).map fun r => (r.map (· + pos.toNat)).getD NPOS

/-- cstr_prv.h:306-307 `cstr_equals`. -/
def equals (str cs : List Byte) : Option Bool := (strcmp str cs).map (· == 0)

/-- zsview.h:46-49 `zsview_equals`. -/
def zequals (str : List Byte) (size : Nat) (cs : List Byte) : Option Bool := do
  let n ← strlen cs
  eqSv str size cs n

/-- cstr_prv.h:309-310 `cstr_equals_sv`. -/
def equalsSv (str : List Byte) (size : Nat) (q : List Byte) (n : Nat) : Option Bool := eqSv q n str size

/-- cstr_prv.h:324-327 `cstr_starts_with_sv`. -/
def startsWithSv (str : List Byte) (size : Nat) (q : List Byte) (n : Nat) : Option Bool :=
  if n > size then some false else (memcmp str q n).map (· == 0)

/-- cstr_prv.h:335-339 `cstr_ends_with_sv`. -/
def endsWithSv (str : List Byte) (size : Nat) (q : List Byte) (n : Nat) : Option Bool :=
  if n > size then some false else (memcmp (str.drop (size - n)) q n).map (· == 0)

/-- cstr_prv.h:320-321 `cstr_contains_sv`. -/
def containsSv (str : List Byte) (size : Nat) (q : List Byte) (n : Nat) : Option Bool :=
  (findSv str size q n).map (· != NPOS)

/-- zsview.h:69-72 `zsview_from_pos`: the view of `size` bytes at index `base` of its object of
`total` bytes becomes the returned one. -/
def fromPos (total base : Nat) (size pos : Int) : Option (Nat × Int) :=
  let pos := if pos > size then size else pos
  if 0 ≤ base + pos ∧ base + pos ≤ total then some ((base + pos).toNat, size - pos) else none

/-- zsview.h:89-90 `zsview_u8_from_pos`. -/
def u8FromPos (m : List Byte) (base : Nat) (size : Int) (pos : Nat) : Option (Nat × Int) := do
  let i ← toIndex (m.drop base) pos
  fromPos m.length base size i

/-- zsview.h:103-108 `zsview_u8_at`, cstr_prv.h:218-224 `cstr_u8_at` (whose assertion asks for a
non-zero size of the character): offset and size of the character. -/
def u8At (str : List Byte) (pos : Nat) : Option (Nat × Nat) := do
  let i ← at' pos str
  let k ← chrSize (str.drop i)
  guard (k ≠ 0)
  some (i, k)

/-- utf8_prv.h:62-68 `utf8_offset` with a non-negative argument: the bytes advanced. -/
def offF : Nat → List Byte → Option Nat
  | 0, _ => some 0
  | _ + 1, [] => none
  | n + 1, b :: m =>
    if b = 0#8 then some 0
    else do
      let b' ← m.head?
      let k ← offF (if lead b' then n else n + 1) m
      some (k + 1)

/-- utf8_prv.h:62-68 `utf8_offset` with a negative argument: the bytes moved back. `cur` is the byte
at the pointer, the list holds the bytes before it in the object, nearest first. -/
def offB : Nat → Byte → List Byte → Option Nat
  | 0, _, _ => some 0
  | n + 1, cur, before =>
    if cur = 0#8 then some 0
    else match before with
      | [] => none
      | b :: r => (offB (if lead b then n else n + 1) b r).map (· + 1)

/-- utf8_prv.h:62-68 `utf8_offset` from index `p` of an object; negating the least `isize` is
undefined. -/
def offset (m : List Byte) (p : Nat) (k : Int) : Option Nat :=
  if k < 0 then do
    guard (k ≠ -2 ^ 63)
    let b ← m[p]?
    let d ← offB k.natAbs b (m.take p).reverse
    some (p - d)
  else (offF k.toNat (m.drop p)).map (p + ·)

/-- zsview.h:132-137 `zsview_advance`, cstr_prv.h:242-247 `cstr_advance`, of an iterator at index
`p`. -/
def advance (m : List Byte) (p : Nat) (k : Int) : Option Iter := do
  let q ← offset m p k
  let n ← chrSize (m.drop q)
  let b ← m[q]?
  some (if b = 0#8 then none else some q, n)

/-- utf8_prv.c:69-71 `utf8_peek_at`. -/
def peekAt (m : List Byte) (p : Nat) (k : Int) : Option Nat := do
  let q ← offset m p k
  peek (m.drop q)

end Verif.Zstr
