import Verif.Regex.Lex
/-
Model of the tests of named character classes, `_runematch` in /repo/include/stc/priv/cregex_prv.c. The
Unicode tables behind `utf8_isgroup` and the functions built on it are a parameter.
-/
namespace Verif.Regex

/-- The tests: the functions of <ctype.h> and a few comparisons; those of Unicode; the groups of `U8G_*`
(ucd_prv.c 32-41). -/
inductive Test
  | alnum | alpha | ascii | blank | cntrl | digit | space | word | graph | print | punct | lower | upper | xdigit
  | ualpha | ualnum | ublank | ucased | ulower | uupper | uspace | uword
  | grp (g : Nat)
deriving DecidableEq, Repr

/-- The tests in the locale "C"; for arguments above 255 the functions of <ctype.h> are undefined, which
is not modelled: there they are false. `U` are the ones of Unicode. -/
def Test.holds (U : Test → Nat → Bool) : Test → Nat → Bool
  | .alnum, r => (48 ≤ r && r ≤ 57) || (65 ≤ r && r ≤ 90) || (97 ≤ r && r ≤ 122)
  | .alpha, r => (65 ≤ r && r ≤ 90) || (97 ≤ r && r ≤ 122)
  | .ascii, r => r < 128
  | .blank, r => r == 32 || r == 9
  | .cntrl, r => r < 32 || r == 127
  | .digit, r => 48 ≤ r && r ≤ 57
  | .space, r => r == 32 || (9 ≤ r && r ≤ 13)
  | .word, r => (48 ≤ r && r ≤ 57) || (65 ≤ r && r ≤ 90) || (97 ≤ r && r ≤ 122) || r == 95
  | .graph, r => 33 ≤ r && r ≤ 126
  | .print, r => 32 ≤ r && r ≤ 126
  | .punct, r => (33 ≤ r && r ≤ 47) || (58 ≤ r && r ≤ 64) || (91 ≤ r && r ≤ 96) || (123 ≤ r && r ≤ 126)
  | .lower, r => 97 ≤ r && r ≤ 122
  | .upper, r => 65 ≤ r && r ≤ 90
  | .xdigit, r => (48 ≤ r && r ≤ 57) || (65 ≤ r && r ≤ 70) || (97 ≤ r && r ≤ 102)
  | t, r => U t r

/-- The cases of `_runematch` (cregex_prv.c 942-990) with the values of the codes (cregex_prv.c 125-166):
the test, and whether it is negated. -/
def codeTest (s : Nat) : Option (Test × Bool) :=
  match s with
  | 0x8100002 => some (.alnum, false) | 0x8100003 => some (.alnum, true)
  | 0x8100004 => some (.alpha, false) | 0x8100005 => some (.alpha, true)
  | 0x8100006 => some (.ascii, false) | 0x8100007 => some (.ascii, true)
  | 0x8100008 => some (.blank, false) | 0x8100009 => some (.blank, true)
  | 0x810000a => some (.cntrl, false) | 0x810000b => some (.cntrl, true)
  | 0x810000c => some (.digit, false) | 0x810000d => some (.digit, true)
  | 0x810000e => some (.space, false) | 0x810000f => some (.space, true)
  | 0x8100010 => some (.word, false) | 0x8100011 => some (.word, true)
  | 0x8100012 => some (.graph, false) | 0x8100013 => some (.graph, true)
  | 0x8100014 => some (.print, false) | 0x8100015 => some (.print, true)
  | 0x8100016 => some (.punct, false) | 0x8100017 => some (.punct, true)
  | 0x8100018 => some (.lower, false) | 0x8100019 => some (.lower, true)
  | 0x810001a => some (.upper, false) | 0x810001b => some (.upper, true)
  | 0x810001c => some (.xdigit, false) | 0x810001d => some (.xdigit, true)
  | 0x810001e => some (.ualpha, false) | 0x810001f => some (.ualpha, true)
  | 0x8100020 => some (.ualnum, false) | 0x8100021 => some (.ualnum, true)
  | 0x8100022 => some (.ublank, false) | 0x8100023 => some (.ublank, true)
  | 0x8100024 => some (.ucased, false) | 0x8100025 => some (.ucased, true)
  | 0x8100026 => some (.ulower, false) | 0x8100027 => some (.ulower, true)
  | 0x8100028 => some (.uupper, false) | 0x8100029 => some (.uupper, true)
  | 0x810002a => some (.uspace, false) | 0x810002b => some (.uspace, true)
  | 0x810002c => some (.uword, false) | 0x810002d => some (.uword, true)
  | s => if 0x8150000 ≤ s ∧ s < 0x8150000 + 2 * 23 then some (.grp ((s - 0x8150000) / 2), s % 2 == 1) else none

/-- `_runematch` (cregex_prv.c 938-993) on a code. -/
def grpOf (U : Test → Nat → Bool) (s r : Nat) : Bool :=
  match codeTest s with
  | some (t, inv) => inv ^^ t.holds U r
  | none => s == r

end Verif.Regex
