import Verif.Utf8.Groups
import Verif.Utf8.Model
/-
The tests of character classes (ucd_prv.c 46-82, 472-480; utf8_prv.h 101-105).
-/
namespace Verif.Utf8

/-- The loop of `utf8_isgroup` over the ranges of one group (ucd_prv.c 473-479). -/
def groupLoop (c : Nat) : List (Nat × Nat) → Bool
  | [] => false
  | r :: rs => if c < r.1 then false else if c ≤ r.2 then true else groupLoop c rs

/-- `utf8_isgroup` (ucd_prv.c 472-480); a number that is no group reads past the table. -/
def isgroup (g c : Nat) : Option Bool := (groups[g]?).map (groupLoop c)

/-- `isalpha` of the locale "C" below 128 (ISO C 7.4.1.2). -/
def cAlpha (c : Nat) : Bool := (65 ≤ c && c ≤ 90) || (97 ≤ c && c ≤ 122)

/-- `isalnum` of the locale "C" below 128 (ISO C 7.4.1.1). -/
def cAlnum (c : Nat) : Bool := (48 ≤ c && c ≤ 57) || cAlpha c

/-- `isspace` of the locale "C" below 128 (ISO C 7.4.1.10). -/
def cSpace (c : Nat) : Bool := c == 32 || (9 ≤ c && c ≤ 13)

/-- The groups `utf8_isalpha` looks at, as numbers (ucd_prv.c 47-49): Latin, Nl, Cyrillic, Han, Devanagari,
Arabic, Bengali, Hiragana, Katakana, Thai, Greek, Georgian. -/
def alphaGroups : List Nat := [21, 3, 14, 18, 15, 12, 13, 19, 20, 22, 17, 16]

/-- The loop of `utf8_isalpha` (ucd_prv.c 51-53). -/
def alphaLoop (c : Nat) : List Nat → Option Bool
  | [] => some false
  | g :: gs => (isgroup g c).bind fun b => if b then some true else alphaLoop c gs

/-- `utf8_isalpha` (ucd_prv.c 46-55). -/
def isalpha (c : Nat) : Option Bool := if c < 128 then some (cAlpha c) else alphaLoop c alphaGroups

/-- `utf8_isupper` (utf8_prv.h 101-102). -/
def isupper (c : Nat) : Bool := tolower c != c

/-- `utf8_islower` (utf8_prv.h 104-105). -/
def islower (c : Nat) : Bool := toupper c != c

/-- `utf8_iscased` (ucd_prv.c 57-61). -/
def iscased (c : Nat) : Option Bool :=
  if c < 128 then some (cAlpha c) else if islower c || isupper c then some true else isgroup 1 c

/-- `utf8_isalnum` (ucd_prv.c 63-66). -/
def isalnum (c : Nat) : Option Bool :=
  if c < 128 then some (cAlnum c) else (isalpha c).bind fun b => if b then some true else isgroup 2 c

/-- `utf8_isword` (ucd_prv.c 68-72). -/
def isword (c : Nat) : Option Bool :=
  if c < 128 then some (cAlnum c || c == 95)
  else (isalpha c).bind fun b => if b then some true else
    (isgroup 2 c).bind fun b => if b then some true else isgroup 4 c

/-- `utf8_isblank` (ucd_prv.c 74-77). -/
def isblank (c : Nat) : Option Bool := if c < 128 then some (c == 32 || c == 9) else isgroup 11 c

/-- `utf8_isspace` (ucd_prv.c 79-82). -/
def isspace (c : Nat) : Option Bool :=
  if c < 128 then some (cSpace c) else if c == 8232 || c == 8233 then some true else isgroup 11 c

end Verif.Utf8
