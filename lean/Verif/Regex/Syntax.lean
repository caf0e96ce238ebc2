import Verif.Regex.Names
import Verif.Regex.TextSpec
/-
The syntax of patterns, written independently of the lexer: how the symbols of a pattern are spelled, and
what the operands match. (The documentation is docs/cregex_api.md.)

Left out: `\B`, flags `(?i)` that change the mode (for those in front see Flags.lean), an unquoted `-` at the
beginning of a negated class, ranges with an escaped end, a `\x{}` for a letter.
-/
namespace Verif.Regex.Spec
open Verif.Utf8 (casefold)

/-- Letters and digits of ASCII. -/
def alnum (c : Nat) : Bool := (48 ≤ c && c ≤ 57) || (65 ≤ c && c ≤ 90) || (97 ≤ c && c ≤ 122)

/-- The names of the classes `[:name:]`. -/
def posix : List (List Nat × Test) := [
  ([97, 108, 110, 117, 109], .alnum) /- alnum -/,
  ([97, 108, 112, 104, 97], .alpha) /- alpha -/,
  ([97, 115, 99, 105, 105], .ascii) /- ascii -/,
  ([98, 108, 97, 110, 107], .blank) /- blank -/,
  ([99, 110, 116, 114, 108], .cntrl) /- cntrl -/,
  ([100, 105, 103, 105, 116], .digit) /- digit -/,
  ([103, 114, 97, 112, 104], .graph) /- graph -/,
  ([108, 111, 119, 101, 114], .lower) /- lower -/,
  ([112, 114, 105, 110, 116], .print) /- print -/,
  ([112, 117, 110, 99, 116], .punct) /- punct -/,
  ([115, 112, 97, 99, 101], .space) /- space -/,
  ([117, 112, 112, 101, 114], .upper) /- upper -/,
  ([120, 100, 105, 103, 105, 116], .xdigit) /- xdigit -/,
  ([119, 111, 114, 100], .word) /- word -/]

/-- The names of the properties `\p{name}`; `.grp` is a general category or script by its number. -/
def uniProps : List (List Nat × Test) := [
  ([65, 108, 112, 104, 97], .ualpha) /- Alpha -/,
  ([76, 38], .ucased) /- L& -/,
  ([68, 105, 103, 105, 116], .grp 2) /- Digit -/,
  ([78, 100], .grp 2) /- Nd -/,
  ([76, 111, 119, 101, 114], .ulower) /- Lower -/,
  ([76, 108], .ulower) /- Ll -/,
  ([85, 112, 112, 101, 114], .uupper) /- Upper -/,
  ([76, 117], .uupper) /- Lu -/,
  ([67, 110, 116, 114, 108], .grp 0) /- Cntrl -/,
  ([67, 99], .grp 0) /- Cc -/,
  ([65, 108, 110, 117, 109], .ualnum) /- Alnum -/,
  ([66, 108, 97, 110, 107], .ublank) /- Blank -/,
  ([83, 112, 97, 99, 101], .uspace) /- Space -/,
  ([87, 111, 114, 100], .uword) /- Word -/,
  ([88, 68, 105, 103, 105, 116], .xdigit) /- XDigit -/,
  ([76, 116], .grp 1) /- Lt -/,
  ([78, 108], .grp 3) /- Nl -/,
  ([80, 99], .grp 4) /- Pc -/,
  ([80, 100], .grp 5) /- Pd -/,
  ([80, 102], .grp 6) /- Pf -/,
  ([80, 105], .grp 7) /- Pi -/,
  ([90, 108], .grp 9) /- Zl -/,
  ([90, 112], .grp 10) /- Zp -/,
  ([90, 115], .grp 11) /- Zs -/,
  ([83, 99], .grp 8) /- Sc -/,
  ([65, 114, 97, 98, 105, 99], .grp 12) /- Arabic -/,
  ([66, 101, 110, 103, 97, 108, 105], .grp 13) /- Bengali -/,
  ([67, 121, 114, 105, 108, 108, 105, 99], .grp 14) /- Cyrillic -/,
  ([68, 101, 118, 97, 110, 97, 103, 97, 114, 105], .grp 15) /- Devanagari -/,
  ([71, 101, 111, 114, 103, 105, 97, 110], .grp 16) /- Georgian -/,
  ([71, 114, 101, 101, 107], .grp 17) /- Greek -/,
  ([72, 97, 110], .grp 18) /- Han -/,
  ([72, 105, 114, 97, 103, 97, 110, 97], .grp 19) /- Hiragana -/,
  ([75, 97, 116, 97, 107, 97, 110, 97], .grp 20) /- Katakana -/,
  ([76, 97, 116, 105, 110], .grp 21) /- Latin -/,
  ([84, 104, 97, 105], .grp 22) /- Thai -/]

/-- Control characters: their letter, and the code point. -/
def ctls : List (Nat × Nat) := [(116, 9), (110, 10), (114, 13), (118, 11), (102, 12), (97, 7)]

/-- `\d`, `\s`, `\w`. -/
def short : List (Nat × Test) := [(100, .grp 2), (115, .uspace), (119, .uword)]

/-- What is between brackets. -/
inductive Item
  | chr (c : Nat)
  | esc (c : Nat)
  | ctl (l c : Nat)
  | rng (a b : Nat)
  | short (l : Nat) (t : Test) (neg : Bool)
  | posix (n : List Nat) (t : Test) (neg : Bool)
  | uni (n : List Nat) (t : Test) (neg : Bool)
  | sym (c : Nat)
deriving DecidableEq, Repr

/-- Characters that stand for themselves between brackets. -/
def plainIn (c : Nat) : Bool := c != 0 && c != 92 && c != 93 && c != 91 && c != 45 && c != 94

/-- Both are lower case letters of ASCII, or upper case letters, or digits. -/
def Alike (a b : Nat) : Prop := (97 ≤ a ∧ a ≤ 122 ∧ 97 ≤ b ∧ b ≤ 122) ∨ (65 ≤ a ∧ a ≤ 90 ∧ 65 ≤ b ∧ b ≤ 90) ∨ (48 ≤ a ∧ a ≤ 57 ∧ 48 ≤ b ∧ b ≤ 57)

/-- What can be written; without regard to case only ranges like `[a-f]`, `[A-F]`, `[0-7]`. -/
def Item.ok (ic : Bool) : Item → Prop
  | .chr c => plainIn c = true ∧ c < 0x110000
  | .esc c => c ≠ 0 ∧ alnum c = false ∧ c < 0x110000
  | .ctl l c => (l, c) ∈ ctls
  | .rng a b => (ic = true → Alike a b) ∧ plainIn a = true ∧ plainIn b = true ∧ a < 0x110000 ∧ b < 0x110000
  | .short l t _ => (l, t) ∈ Spec.short
  | .posix n t _ => (n, t) ∈ Spec.posix
  | .uni n t _ => (n, t) ∈ uniProps
  | .sym c => c = 45 ∨ c = 94 ∨ c = 91

def Item.show : Item → List Nat
  | .chr c => [c]
  | .esc c => [92, c]
  | .ctl l _ => [92, l]
  | .rng a b => [a, 45, b]
  | .short l _ neg => [92, if neg then l - 32 else l]
  | .posix n _ neg => [91, 58] ++ (if neg then [94] else []) ++ n ++ [58, 93]
  | .uni n _ neg => [92, if neg then 80 else 112, 123] ++ n ++ [125]
  | .sym c => [c]

/-- Where `-`, `^` and `[` stand for themselves: a dash at the beginning of a class that is not negated, `^`
anywhere but at the beginning (behind the `^` of a negated class also there), `[` where no colon
follows. `next` is the character behind the item. -/
def Item.placed (neg first : Bool) (next : Option Nat) : Item → Prop
  | .sym c => (c = 45 → first = true ∧ neg = false) ∧ (c = 94 → first = true → neg = true) ∧ (c = 91 → next ≠ some 58)
  | _ => True

def Placed (neg : Bool) : Bool → List Item → Prop
  | _, [] => True
  | first, it :: l => it.placed neg first (l.flatMap Item.show).head? ∧ Placed neg false l

/-- The character `r` is the character `c`, or without regard to case. -/
def Same (ic : Bool) (c r : Nat) : Prop := if ic then casefold r = casefold c else r = c

/-- Without regard to case a lower case or an upper case letter is any letter that has a case. -/
def _root_.Verif.Regex.Test.mode (ic : Bool) (t : Test) : Test :=
  if ic then match t with
    | .lower | .upper => .alpha
    | .ulower | .uupper => .ucased
    | t => t
  else t

/-- The character `r` passes a named test, or fails it; without regard to case the folded one does. -/
def Named (ic : Bool) (U : Test → Nat → Bool) (t : Test) (neg : Bool) (r : Nat) : Prop :=
  (t.mode ic).holds U (if ic then casefold r else r) = !neg

/-- The character `r` is in the item. -/
def Item.has (ic : Bool) (U : Test → Nat → Bool) (r : Nat) : Item → Prop
  | .chr c | .esc c | .ctl _ c | .sym c => Same ic c r
  | .rng a b => if ic then ∃ x, a ≤ x ∧ x ≤ b ∧ casefold x = casefold r else a ≤ r ∧ r ≤ b
  | .short _ t neg | .posix _ t neg | .uni _ t neg => Named ic U t neg r

/-- The operands. `lit` is a character inside `\Q..\E`; a class may end with a dash; `mode` is `(?i)` or
`(?-i)`. -/
inductive Sur
  | chr (c : Nat)
  | lit (c : Nat)
  | esc (c : Nat)
  | ctl (l c : Nat)
  | hex (ds : List Nat)
  | short (l : Nat) (t : Test) (neg : Bool)
  | uni (n : List Nat) (t : Test) (neg : Bool)
  | dot | bol | eol | bos | eos | eoz | wb
  | mode (b : Bool)
  | cls (neg : Bool) (items : List Item) (dash : Bool)
deriving DecidableEq, Repr

/-- Characters that stand for themselves. -/
def plain (c : Nat) : Bool :=
  c != 0 && c != 92 && c != 42 && c != 63 && c != 43 && c != 124 && c != 94 && c != 36 && c != 46 && c != 91 && c != 40 && c != 41

/-- The value of hexadecimal digits. -/
def hexv (ds : List Nat) : Nat := ds.foldl (fun v d => 16 * v + d) 0

/-- How a digit is written. -/
def hexc (d : Nat) : Nat := if d < 10 then 48 + d else 87 + d

/-- What can be written as an operand of its own. -/
def Sur.ok (ic : Bool) : Sur → Prop
  | .chr c => plain c = true ∧ c < 0x110000
  | .lit _ => False
  | .esc c => c ≠ 0 ∧ alnum c = false ∧ c < 0x110000
  | .ctl l c => (l, c) ∈ ctls
  | .hex ds => ds ≠ [] ∧ (∀ d ∈ ds, d < 16) ∧ hexv ds < 0x110000 ∧ alnum (hexv ds) = false
  | .short l t _ => (l, t) ∈ Spec.short
  | .uni n t _ => (n, t) ∈ uniProps
  | .mode b => b = ic
  | .cls neg items _ => items.length + (if neg then 1 else 0) ≤ 31 ∧ (∀ it ∈ items, it.ok ic) ∧ Placed neg true items
  | _ => True

def Sur.show : Sur → List Nat
  | .chr c | .lit c => [c]
  | .esc c => [92, c]
  | .ctl l _ => [92, l]
  | .hex ds => [92, 120, 123] ++ ds.map hexc ++ [125]
  | .short l _ neg => [92, if neg then l - 32 else l]
  | .uni n _ neg => [92, if neg then 80 else 112, 123] ++ n ++ [125]
  | .dot => [46]
  | .bol => [94]
  | .eol => [36]
  | .bos => [92, 65]
  | .eos => [92, 122]
  | .eoz => [92, 90]
  | .wb => [92, 98]
  | .mode b => [40, 63] ++ (if b then [] else [45]) ++ [105, 41]
  | .cls neg items dash => [91] ++ (if neg then [94] else []) ++ items.flatMap Item.show ++ (if dash then [45] else []) ++ [93]

def Tok.show : Tok Sur → List Nat
  | .one a => a.show
  | .lpar => [40] | .rpar => [41] | .bar => [124] | .star => [42] | .plus => [43] | .opt => [63]

/-- `Spells ic s l`: the text `s` is a spelling of the symbols `l`. A left parenthesis is not followed by
a question mark. -/
inductive Spells (ic : Bool) : List Nat → List (Tok Sur) → Prop
  | nil : Spells ic [] []
  | tok {t s l} : (∀ a, t = .one a → a.ok ic) → (t = .lpar → s.head? ≠ some 63) → Spells ic s l → Spells ic (t.show ++ s) (t :: l)
  | quote {w s l} : 0 ∉ w → 92 ∉ w → (∀ c ∈ w, c < 0x110000) → Spells ic s l → Spells ic ([92, 81] ++ w ++ [92, 69] ++ s) (w.map (fun c => .one (.lit c)) ++ l)

/-- What an operand matches in the text `cs`; `ic` and `dotall` are the flags. -/
def Sur.has (ic dotall : Bool) (U : Test → Nat → Bool) (cs : List Nat) : Sur → Nat → Nat → Prop
  | .chr c, i, j | .lit c, i, j | .esc c, i, j | .ctl _ c, i, j => Char1 cs (Same ic c) i j
  | .hex ds, i, j => Char1 cs (Same ic (hexv ds)) i j
  | .short _ t neg, i, j | .uni _ t neg, i, j => Char1 cs (Named ic U t neg) i j
  | .dot, i, j => Char1 cs (fun r => dotall = true ∨ r ≠ 10) i j
  | .cls neg items dash, i, j =>
    if neg then Char1 cs (fun r => r ≠ 10 ∧ (∀ it ∈ items, ¬ it.has ic U r) ∧ ¬ (dash = true ∧ r = 45)) i j
    else Char1 cs (fun r => (∃ it ∈ items, it.has ic U r) ∨ (dash = true ∧ r = 45)) i j
  | .bol, i, j => j = i ∧ (i = 0 ∨ cs[i - 1]? = some 10)
  | .bos, i, j => j = i ∧ i = 0
  | .eol, i, j => j = i ∧ (i = cs.length ∨ cs[i]? = some 10)
  | .eos, i, j => j = i ∧ i = cs.length
  | .eoz, i, j => j = i ∧ (i = cs.length ∨ (cs[i]? = some 10 ∧ i + 1 = cs.length))
  | .wb, i, j => j = i ∧ Bound (Test.uword.holds U) cs i
  | .mode _, i, j => j = i ∧ True

/-- Applying a function to the operands. -/
def Tok.map {α β : Type} (f : α → β) : Tok α → Tok β
  | .one a => .one (f a)
  | .lpar => .lpar | .rpar => .rpar | .bar => .bar | .star => .star | .plus => .plus | .opt => .opt

def Re.map {α β : Type} (f : α → β) : Re α → Re β
  | .one a => .one (f a)
  | .grp k e => .grp k (e.map f)
  | .cat a b => .cat (a.map f) (b.map f)
  | .alt a b => .alt (a.map f) (b.map f)
  | .star e => .star (e.map f)
  | .plus e => .plus (e.map f)
  | .opt e => .opt (e.map f)

end Verif.Regex.Spec
