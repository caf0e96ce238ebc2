import Verif.Fmt.Model
/-
What the documentation of fmt.h (4-28) promises, and what `printf` reads in a format
(C11 7.21.6.1), independent of the code.
-/
namespace Verif.Fmt.Spec

/-! ## Formats as their author means them -/

/-- A piece of a format: a character to be printed, or a field with its modifiers. -/
inductive Piece where
  | lit (c : Char)
  | field (colon : Bool) (mods : List Char)
deriving DecidableEq

/-- How a piece is written. -/
def Piece.show : Piece → List Char
  | .lit c => if c = '{' then ['{', '{'] else if c = '}' then ['}', '}'] else [c]
  | .field colon mods => '{' :: ((if colon then [':'] else []) ++ mods ++ ['}'])

/-- The pieces that can be written. -/
def Piece.Ok : Piece → Prop
  | .lit c => c ≠ nul
  | .field colon mods => (∀ c ∈ mods, c ≠ nul ∧ c ≠ '}') ∧ (colon = false → mods = [])

/-- How many arguments a piece takes. -/
def Piece.uses : Piece → Nat
  | .lit _ => 0
  | .field _ mods => 1 + mods.count '*'

/-- The text of a format. -/
def text (ps : List Piece) : List Char := ps.flatMap Piece.show

/-- The number of arguments of a format. -/
def uses (ps : List Piece) : Nat := (ps.map Piece.uses).sum

/-! ## What `printf` reads -/

/-- A width or precision. -/
inductive Num where
  | star
  | lit (n : Nat)
deriving DecidableEq

/-- A conversion specification. -/
structure Conv where
  left : Bool := false
  plus : Bool := false
  space : Bool := false
  alt : Bool := false
  zero : Bool := false
  width : Option Num := none
  prec : Option Num := none
  len : List Char := []
  conv : Char
deriving DecidableEq

/-- A directive of a `printf` format. -/
inductive Dir where
  | lit (c : Char)
  | conv (c : Conv)
deriving DecidableEq

/-- The characters of `+`, space, `#`, `0` and `-`. -/
def flagChars : List Char := "-+ #0".toList

/-- The value of a decimal number. -/
def value (ds : List Char) : Nat := ds.foldl (fun v c => 10 * v + (c.toNat - 48)) 0

/-- A `*`, or a number of at least one digit. -/
def readNum (s : List Char) : Option Num × List Char :=
  match s with
  | '*' :: r => (some .star, r)
  | _ =>
    let ds := s.takeWhile Char.isDigit
    if ds = [] then (none, s) else (some (.lit (value ds)), s.dropWhile Char.isDigit)

/-- The precision: a `.` without a number means zero. -/
def readPrec (s : List Char) : Option Num × List Char :=
  match s with
  | '.' :: r => (some ((readNum r).1.getD (.lit 0)), (readNum r).2)
  | _ => (none, s)

/-- The length modifier. -/
def readLen : List Char → List Char × List Char
  | 'h' :: 'h' :: r => (['h', 'h'], r)
  | 'h' :: r => (['h'], r)
  | 'l' :: 'l' :: r => (['l', 'l'], r)
  | 'l' :: r => (['l'], r)
  | 'L' :: r => (['L'], r)
  | 'j' :: r => (['j'], r)
  | 'z' :: r => (['z'], r)
  | 't' :: r => (['t'], r)
  | r => ([], r)

/-- The conversion specifiers other than `%`. -/
def convChars : List Char := "diouxXfFeEgGaAcspn".toList

/-- A conversion specification behind its `%`. -/
def readConv (s : List Char) : Option (Conv × List Char) :=
  let fl := s.takeWhile (· ∈ flagChars)
  let w := readNum (s.dropWhile (· ∈ flagChars))
  let p := readPrec w.2
  let l := readLen p.2
  match l.2 with
  | [] => none
  | c :: r =>
    if c ∈ convChars then
      some ({ left := '-' ∈ fl, plus := '+' ∈ fl, space := ' ' ∈ fl, alt := '#' ∈ fl, zero := '0' ∈ fl
              width := w.1, prec := p.1, len := l.1, conv := c }, r)
    else none

/-- All directives of a format; `none` if it is malformed. -/
def readFmt : Nat → List Char → Option (List Dir)
  | 0, _ => none
  | _ + 1, [] => some []
  | fuel + 1, '%' :: '%' :: r => (readFmt fuel r).map (.lit '%' :: ·)
  | fuel + 1, '%' :: r => (readConv r).bind fun x => (readFmt fuel x.2).map (.conv x.1 :: ·)
  | fuel + 1, c :: r => (readFmt fuel r).map (.lit c :: ·)

/-- The directives `printf` finds in a format. -/
def directives (s : List Char) : Option (List Dir) := readFmt (s.length + 1) s

/-! ## What a field is meant to do -/

/-- Modifiers as documented: an alignment, then those of `printf`. -/
structure Mods where
  /-- `<` or `>` -/
  align : Option Bool
  /-- `+`, space, `#`, `0`; also `-`, which has no effect (`<` replaces it) -/
  flags : List Char
  /-- a number without leading zero, or `*` -/
  width : List Char
  /-- a number (possibly empty) or `*` -/
  prec : Option (List Char)
  /-- length modifier and conversion specifier -/
  conv : Option (List Char × Char)

/-- How modifiers are written. -/
def Mods.show (m : Mods) : List Char :=
  (match m.align with | none => [] | some true => ['<'] | some false => ['>']) ++ m.flags ++ m.width ++
  (match m.prec with | none => [] | some p => '.' :: p) ++
  (match m.conv with | none => [] | some (l, c) => l ++ [c])

/-- A number or `*` or nothing. -/
def IsNum (s : List Char) : Prop := s = ['*'] ∨ ∀ c ∈ s, c.isDigit

/-- The length modifiers. -/
def lens : List (List Char) :=
  [[], ['h', 'h'], ['h'], ['l', 'l'], ['l'], ['L'], ['j'], ['z'], ['t']]

structure Mods.Ok (m : Mods) : Prop where
  flags : ∀ c ∈ m.flags, c ∈ flagChars
  width : IsNum m.width
  nozero : m.width.head? ≠ some '0'
  prec : ∀ p, m.prec = some p → IsNum p
  conv : ∀ l c, m.conv = some (l, c) → l ∈ lens ∧ c ∈ convChars

/-- The conversion `printf` needs for an argument of a type (C11 7.21.6.1, 7-8); characters are printed as
characters. -/
def natural : CType → List Char × Char
  | .bool => ([], 'd')
  | .uchar => (['h', 'h'], 'u')
  | .schar => ([], 'c')
  | .char => ([], 'c')
  | .short => (['h'], 'd')
  | .ushort => (['h'], 'u')
  | .int => ([], 'd')
  | .uint => ([], 'u')
  | .long => (['l'], 'd')
  | .ulong => (['l'], 'u')
  | .llong => (['l', 'l'], 'd')
  | .ullong => (['l', 'l'], 'u')
  | .float => ([], 'g')
  | .double => ([], 'g')
  | .ldouble => (['L'], 'g')
  | .str => ([], 's')
  | .wstr => (['l'], 's')
  | .ptr => ([], 'p')

/-- The documented precision of a field without modifiers. -/
def defaultPrec : CType → Option Num
  | .float => some (.lit 8)
  | .double => some (.lit 16)
  | .ldouble => some (.lit 16)
  | _ => none

/-- The meaning of a number or `*`; nothing is `d`. -/
def num (s : List Char) (d : Option Num) : Option Num :=
  if s = [] then d else if s = ['*'] then some .star else some (.lit (value s))

/-- The conversion a field stands for, its last argument having the type `t`. -/
def meaning (m : Mods) (t : CType) : Conv :=
  let lc := m.conv.getD (natural t)
  { left := m.align = some true ∨ m.align = none ∧ (lc.2 = 's' ∨ lc.2 = 'c')
    plus := '+' ∈ m.flags, space := ' ' ∈ m.flags, alt := '#' ∈ m.flags, zero := '0' ∈ m.flags
    width := num m.width none
    prec := if m.show = [] then defaultPrec t
            else match m.prec with | none => none | some p => num p (some (.lit 0))
    len := lc.1, conv := lc.2 }

/-- A piece of a format with documented modifiers. -/
inductive Elem where
  | lit (c : Char)
  | field (colon : Bool) (m : Mods)

def Elem.piece : Elem → Piece
  | .lit c => .lit c
  | .field colon m => .field colon m.show

def Elem.Ok : Elem → Prop
  | .lit c => c ≠ nul
  | .field colon m => m.Ok ∧ (colon = false → m.show = [])

/-- What the format is meant to print: each character itself, each field its last argument. -/
def meant : List Elem → List CType → List Dir
  | [], _ => []
  | .lit c :: es, ts => .lit c :: meant es ts
  | .field colon m :: es, ts =>
    let u := (Piece.field colon m.show).uses
    .conv (meaning m ((ts[u - 1]?).getD .int)) :: meant es (ts.drop u)

/-- Does a conversion accept an argument of this type (C11 7.21.6.1, 9)? Signedness is not looked at. -/
def Fits (c : Conv) (t : CType) : Prop :=
  match t with
  | .bool | .uchar | .schar | .char | .short | .ushort | .int | .uint =>
    c.conv ∈ "dioxXuc".toList ∧ c.len ∈ [[], ['h'], ['h', 'h']]
  | .long | .ulong => c.conv ∈ "dioxXu".toList ∧ c.len = ['l']
  | .llong | .ullong => c.conv ∈ "dioxXu".toList ∧ c.len = ['l', 'l']
  | .float | .double => c.conv ∈ "fFeEgGaA".toList ∧ c.len ∈ [[], ['l']]
  | .ldouble => c.conv ∈ "fFeEgGaA".toList ∧ c.len = ['L']
  | .str => c.conv = 's' ∧ c.len = []
  | .wstr => c.conv = 's' ∧ c.len = ['l']
  | .ptr => c.conv = 'p' ∧ c.len = []

/-- Room for a piece in a `printf` format. -/
def Elem.room : Elem → Nat
  | .lit c => if c = '%' then 2 else 1
  | .field _ m => m.show.length + 8

/-- Room for a `printf` format, without its terminator. -/
def room (es : List Elem) : Nat := (es.map Elem.room).sum

/-- The stream holds the text `t`, terminated. -/
def Holds (ss : Stream) (t : List Char) : Prop :=
  ∃ b, ss.data = some b ∧ ss.len = t.length ∧ b.take (t.length + 1) = (t ++ [nul]).map some

/-- What a program does with a stream. -/
inductive Op where
  /-- `fmt_printd(ss, …)`, `none` if the formatting fails -/
  | print (t : Option (List Char))
  /-- `ss->overwrite = b` -/
  | mode (overwrite : Bool)

/-- The text a stream is meant to hold, and its mode. -/
def after : List Char × Bool → Op → List Char × Bool
  | s, .print none => s
  | (old, ow), .print (some t) => (if ow then t else old ++ t, ow)
  | (old, _), .mode b => (old, b)

end Verif.Fmt.Spec
