import Verif.Regex.Comp
/-
Model of the lexer of regular expressions, /repo/include/stc/priv/cregex_prv.c.

The pattern is given by its code points followed by the terminator 0 (the code decodes UTF-8, which for
a valid pattern gives these; characters looked at without decoding are all compared with ASCII ones).
Reading behind the terminator is undefined.
-/
namespace Verif.Regex
open Verif.Utf8 (casefold)
open Spec (Tok)

/-- The lexer's part of `_Parser` (cregex_prv.c 343-367): `exprp`, `litmode`, whether `rune_type` is
`TOK_IRUNE`, whether `dot_type` is `TOK_ANYNL`, `nclass`. -/
structure LS where
  rest : List Nat
  lit : Bool
  ic : Bool
  dot : Bool
  nclass : Nat
deriving DecidableEq, Repr

/-- The value of a hexadecimal digit. -/
def hexVal (c : Nat) : Option Nat :=
  if 48 ≤ c ∧ c ≤ 57 then some (c - 48) else if 97 ≤ c ∧ c ≤ 102 then some (c - 87) else if 65 ≤ c ∧ c ≤ 70 then some (c - 55) else none

/-- The digits of a number and what follows. -/
def hexDigits : List Nat → List Nat × List Nat
  | [] => ([], [])
  | c :: cs =>
    match hexVal c with
    | some d => (d :: (hexDigits cs).1, (hexDigits cs).2)
    | none => ([], c :: cs)

def skipSpace : List Nat → List Nat
  | c :: cs => if c = 32 ∨ (9 ≤ c ∧ c ≤ 13) then skipSpace cs else c :: cs
  | [] => []

/-- `0x` before a digit is skipped. -/
def skip0x : List Nat → List Nat
  | 48 :: x :: d :: cs => if (x = 120 ∨ x = 88) ∧ (hexVal d).isSome then d :: cs else 48 :: x :: d :: cs
  | cs => cs

/-- The sign: whether it is minus, and what follows. -/
def sign : List Nat → Bool × List Nat
  | 45 :: t => (true, t)
  | 43 :: t => (false, t)
  | t => (false, t)

/-- `(uint32_t)strtol(s, &end, 16)` and `end`; a `long` has 64 bits. Without a number, `end` is `s`. -/
def strtol16 (s : List Nat) : Nat × List Nat :=
  let t := sign (skipSpace s)
  let x := hexDigits (skip0x t.2)
  if x.1 = [] then (0, s)
  else
    let v : Nat := x.1.foldl (fun v d => 16 * v + d) 0
    let v : Int := if t.1 then max (-(v : Int)) (-2 ^ 63) else min v (2 ^ 63 - 1)
    ((v % 2 ^ 32).toNat, x.2)

/-- `_nextc` (cregex_prv.c 606-636): whether the character is quoted, the character, the new `litmode`,
the new `exprp`. -/
def nextc : Bool → List Nat → R (Bool × Nat × Bool × List Nat)
  | _, [] => .ub
  | lit, [c] => if c = 92 then .ub else .ok (lit, c, lit, [])
  | lit, c :: d :: ds =>
    if c = 92 then
      if lit then (if d = 69 then nextc false ds else .ok (true, 92, true, d :: ds))
      else if d = 81 then nextc true ds
      else if d = 120 ∧ ds.head? = some 123 then
        match (strtol16 ds.tail).2 with
        | 125 :: e => .ok (true, (strtol16 ds.tail).1, false, e)
        | [] => .ub
        | _ => .err .unmatchedRight
      else .ok (true, d, false, ds)
    else .ok (lit, c, lit, d :: ds)

/-- `strncmp(s, name, n) == 0` with the length of the name: what follows the name. -/
def strip : List Nat → List Nat → Option (List Nat)
  | [], s => some s
  | _ :: _, [] => none
  | n :: ns, c :: cs => if n = c then strip ns cs else none

/-- The first name of the table that is found. -/
def lookup (s : List Nat) : List (List Nat × Nat) → Option (Nat × List Nat)
  | [] => none
  | (n, k) :: t =>
    match strip n s with
    | some e => some (k, e)
    | none => lookup s t

/-- The names of `_lexasciiclass` (cregex_prv.c 642-648). -/
def asciiNames : List (List Nat × Nat) := [
  ([97, 108, 110, 117, 109, 58, 93], 0x8100002) /- alnum -/,
  ([97, 108, 112, 104, 97, 58, 93], 0x8100004) /- alpha -/,
  ([97, 115, 99, 105, 105, 58, 93], 0x8100006) /- ascii -/,
  ([98, 108, 97, 110, 107, 58, 93], 0x8100008) /- blank -/,
  ([99, 110, 116, 114, 108, 58, 93], 0x810000a) /- cntrl -/,
  ([100, 105, 103, 105, 116, 58, 93], 0x810000c) /- digit -/,
  ([103, 114, 97, 112, 104, 58, 93], 0x8100012) /- graph -/,
  ([108, 111, 119, 101, 114, 58, 93], 0x8100018) /- lower -/,
  ([112, 114, 105, 110, 116, 58, 93], 0x8100014) /- print -/,
  ([112, 117, 110, 99, 116, 58, 93], 0x8100016) /- punct -/,
  ([115, 112, 97, 99, 101, 58, 93], 0x810000e) /- space -/,
  ([117, 112, 112, 101, 114, 58, 93], 0x810001a) /- upper -/,
  ([120, 100, 105, 103, 105, 116, 58, 93], 0x810001c) /- xdigit -/,
  ([119, 111, 114, 100, 58, 93], 0x8100010) /- word -/]

/-- The names of `_lexutfclass` (cregex_prv.c 668-694). -/
def utfNames : List (List Nat × Nat) := [
  ([123, 65, 108, 112, 104, 97, 125], 0x810001e) /- Alpha -/,
  ([123, 76, 38, 125], 0x8100024) /- L& -/,
  ([123, 68, 105, 103, 105, 116, 125], 0x8150004) /- Digit -/,
  ([123, 78, 100, 125], 0x8150004) /- Nd -/,
  ([123, 76, 111, 119, 101, 114, 125], 0x8100026) /- Lower -/,
  ([123, 76, 108, 125], 0x8100026) /- Ll -/,
  ([123, 85, 112, 112, 101, 114, 125], 0x8100028) /- Upper -/,
  ([123, 76, 117, 125], 0x8100028) /- Lu -/,
  ([123, 67, 110, 116, 114, 108, 125], 0x8150000) /- Cntrl -/,
  ([123, 67, 99, 125], 0x8150000) /- Cc -/,
  ([123, 65, 108, 110, 117, 109, 125], 0x8100020) /- Alnum -/,
  ([123, 66, 108, 97, 110, 107, 125], 0x8100022) /- Blank -/,
  ([123, 83, 112, 97, 99, 101, 125], 0x810002a) /- Space -/,
  ([123, 87, 111, 114, 100, 125], 0x810002c) /- Word -/,
  ([123, 88, 68, 105, 103, 105, 116, 125], 0x810001c) /- XDigit -/,
  ([123, 76, 116, 125], 0x8150002) /- Lt -/,
  ([123, 78, 108, 125], 0x8150006) /- Nl -/,
  ([123, 80, 99, 125], 0x8150008) /- Pc -/,
  ([123, 80, 100, 125], 0x815000a) /- Pd -/,
  ([123, 80, 102, 125], 0x815000c) /- Pf -/,
  ([123, 80, 105, 125], 0x815000e) /- Pi -/,
  ([123, 90, 108, 125], 0x8150012) /- Zl -/,
  ([123, 90, 112, 125], 0x8150014) /- Zp -/,
  ([123, 90, 115, 125], 0x8150016) /- Zs -/,
  ([123, 83, 99, 125], 0x8150010) /- Sc -/,
  ([123, 65, 114, 97, 98, 105, 99, 125], 0x8150018) /- Arabic -/,
  ([123, 66, 101, 110, 103, 97, 108, 105, 125], 0x815001a) /- Bengali -/,
  ([123, 67, 121, 114, 105, 108, 108, 105, 99, 125], 0x815001c) /- Cyrillic -/,
  ([123, 68, 101, 118, 97, 110, 97, 103, 97, 114, 105, 125], 0x815001e) /- Devanagari -/,
  ([123, 71, 101, 111, 114, 103, 105, 97, 110, 125], 0x8150020) /- Georgian -/,
  ([123, 71, 114, 101, 101, 107, 125], 0x8150022) /- Greek -/,
  ([123, 72, 97, 110, 125], 0x8150024) /- Han -/,
  ([123, 72, 105, 114, 97, 103, 97, 110, 97, 125], 0x8150026) /- Hiragana -/,
  ([123, 75, 97, 116, 97, 107, 97, 110, 97, 125], 0x8150028) /- Katakana -/,
  ([123, 76, 97, 116, 105, 110, 125], 0x815002a) /- Latin -/,
  ([123, 84, 104, 97, 105, 125], 0x815002c) /- Thai -/]

/-- `inv` and `exprp + off` (cregex_prv.c 649). -/
def caret : List Nat → Bool × List Nat
  | 94 :: s => (true, s)
  | s => (false, s)

/-- `_lexasciiclass` (cregex_prv.c 639-661) behind `[`, where the next character is `:`: the character
or code, and `exprp`. -/
def lexAscii (ic : Bool) (s : List Nat) : Nat × List Nat :=
  match lookup (caret s.tail).2 asciiNames with
  | none => (91, s)
  | some (k, e) =>
    let k := if ic ∧ (k = 0x8100018 ∨ k = 0x810001a) then 0x8100004 else k
    (if (caret s.tail).1 then k + 1 else k, e)

/-- `_lexutfclass` (cregex_prv.c 664-707) behind `\p` or `\P`. -/
def lexUtf (ic : Bool) (r : Nat) (s : List Nat) : Nat × List Nat :=
  match lookup s utfNames with
  | none => (r, s)
  | some (k, e) =>
    let k := if ic ∧ (k = 0x8100026 ∨ k = 0x8100028) then 0x8100024 else k
    (if r = 80 then k + 1 else k, e)

/-- `CASE_RUNE_MAPPINGS` (cregex_prv.c 709-721). -/
def mapping (c : Nat) : Option Nat :=
  if c = 116 then some 9 else if c = 110 then some 10 else if c = 114 then some 13 else if c = 118 then some 11
  else if c = 102 then some 12 else if c = 97 then some 7
  else if c = 100 then some 0x8150004 else if c = 68 then some 0x8150005
  else if c = 115 then some 0x810002a else if c = 83 then some 0x810002b
  else if c = 119 then some 0x810002c else if c = 87 then some 0x810002d
  else none

/-- A quoted character: the mappings and `\p`, `\P` (cregex_prv.c 732-742, 817-822). -/
def quoted (ic : Bool) (c : Nat) (s : List Nat) : Nat × List Nat :=
  match mapping c with
  | some k => (k, s)
  | none => if c = 112 ∨ c = 80 then lexUtf ic c s else (c, s)

def foldc (ic : Bool) (c : Nat) : Nat := if ic then casefold c else c

/-- The spans of a class are read (cregex_prv.c 795-826); the last span is first in the list. -/
def classLoop : Nat → LS → Bool × Nat → List (Nat × Nat) → R (List (Nat × Nat) × LS)
  | 0, _, _, _ => .ub
  | f + 1, st, (q, c), sp =>
    if 32 ≤ sp.length then .ok (sp, st)
    else if c = 0 then .err .malformedClass
    else if q = false ∧ c = 93 then .ok (sp, st)
    else
      match st.rest with
      | [] => .ub
      | x :: _ =>
        if q = false ∧ c = 45 ∧ sp ≠ [] ∧ x ≠ 93 then
          (nextc st.lit st.rest).bind fun (_, c', lit, rest) =>
          if c' = 0 then .err .malformedClass
          else
            match sp with
            | [] => .ub
            | p :: sp =>
              (nextc lit rest).bind fun (q'', c'', lit, rest) =>
              classLoop f { st with lit := lit, rest := rest } (q'', c'') ((p.1, foldc st.ic c') :: sp)
        else
          let y := if q then quoted st.ic c st.rest else if c = 91 ∧ x = 58 then lexAscii st.ic st.rest else (c, st.rest)
          (nextc st.lit y.2).bind fun (q'', c'', lit, rest) =>
          classLoop f { st with lit := lit, rest := rest } (q'', c'') ((foldc st.ic y.1, foldc st.ic y.1) :: sp)

/-- The inner loop of the sorting (cregex_prv.c 830-834): `p` and the spans behind it. -/
def sortPass (p : Nat × Nat) : List (Nat × Nat) → (Nat × Nat) × List (Nat × Nat)
  | [] => (p, [])
  | n :: l => if n.1 < p.1 then ((sortPass n l).1, p :: (sortPass n l).2) else ((sortPass p l).1, n :: (sortPass p l).2)

theorem sortPass_length (p : Nat × Nat) : ∀ l, (sortPass p l).2.length = l.length
  | [] => rfl
  | n :: l => by
    unfold sortPass
    split
    · simp [sortPass_length n l]
    · simp [sortPass_length p l]

/-- The sorting (cregex_prv.c 828-834). -/
def sortSpans : List (Nat × Nat) → List (Nat × Nat)
  | [] => []
  | p :: l => (sortPass p l).1 :: sortSpans (sortPass p l).2
termination_by l => l.length
decreasing_by simp [sortPass_length]

/-- The merging (cregex_prv.c 837-856). -/
def mergeGo (n : Nat × Nat) : List (Nat × Nat) → List (Nat × Nat)
  | [] => [n]
  | p :: l => if p.1 ≤ n.2 then mergeGo (n.1, if n.2 < p.2 then p.2 else n.2) l else n :: mergeGo p l

def mergeSpans : List (Nat × Nat) → List (Nat × Nat)
  | [] => []
  | p :: l => mergeGo p l

/-- `_bldcclass` (cregex_prv.c 774-859) behind `[`. -/
def bldcclass (st : LS) : R (Op × LS) :=
  if 16 ≤ st.nclass then .err .tooManyClasses
  else
    let st := { st with nclass := st.nclass + 1 }
    (nextc st.lit st.rest).bind fun (q, c, lit, rest) =>
    if q = false ∧ c = 94 then
      (nextc lit rest).bind fun (q, c, lit, rest) =>
      (classLoop (st.rest.length + 1) { st with lit := lit, rest := rest } (q, c) [(10, 10)]).bind fun (sp, st) =>
      .ok (.cls true (mergeSpans (sortSpans sp.reverse)), st)
    else
      (classLoop (st.rest.length + 1) { st with lit := lit, rest := rest } (q, c) []).bind fun (sp, st) =>
      .ok (.cls false (mergeSpans (sortSpans sp.reverse)), st)

/-- The flags behind `(?` (cregex_prv.c 754-764): the token, or the end. -/
def flags (en : Bool) (st : LS) : List Nat → R (Option (Tok Op) × LS)
  | [] => .ub
  | 0 :: r => .ok (none, { st with rest := 0 :: r })
  | 41 :: r => .ok (some (.one (if st.ic then .icase else .cased)), { st with rest := r })
  | 45 :: r => flags false st r
  | 115 :: r => flags en { st with dot := en } r
  | 105 :: r => flags en { st with ic := en } r
  | _ :: _ => .err .unknownOperator

/-- The operand for a character: `_operand` folds it for `TOK_IRUNE` (cregex_prv.c 402-406). -/
def runeTok (ic : Bool) (c : Nat) : Tok Op := .one (if ic then .irune (casefold c) else .rune c)

/-- `_lex` (cregex_prv.c 723-772): the token with its operand, or nothing for `TOK_END`. -/
def lex (st : LS) : R (Option (Tok Op) × LS) :=
  (nextc st.lit st.rest).bind fun (q, c, lit, rest) =>
  let st := { st with lit := lit, rest := rest }
  if q then
    if lit then .ok (some (runeTok st.ic c), st)
    else if c = 98 then .ok (some (.one .wbound), st)
    else if c = 66 then .ok (some (.one .nwbound), st)
    else if c = 65 then .ok (some (.one .bos), st)
    else if c = 122 then .ok (some (.one .eos), st)
    else if c = 90 then .ok (some (.one .eoz), st)
    else .ok (some (runeTok st.ic (quoted st.ic c rest).1), { st with rest := (quoted st.ic c rest).2 })
  else if c = 0 then .ok (none, st)
  else if c = 42 then .ok (some .star, st)
  else if c = 63 then .ok (some .opt, st)
  else if c = 43 then .ok (some .plus, st)
  else if c = 124 then .ok (some .bar, st)
  else if c = 94 then .ok (some (.one .bol), st)
  else if c = 36 then .ok (some (.one .eol), st)
  else if c = 46 then .ok (some (.one (if st.dot then .anynl else .any)), st)
  else if c = 91 then (bldcclass st).bind fun (o, st) => .ok (some (.one o), st)
  else if c = 40 then
    match rest with
    | [] => .ub
    | 63 :: r => flags true st r
    | _ :: _ => .ok (some .lpar, st)
  else if c = 41 then .ok (some .rpar, st)
  else .ok (some (runeTok st.ic c), st)

/-- The loop of `_regcomp1` (cregex_prv.c 905-910). -/
def parseLoop (cap : Nat) : Nat → LS → PS → R PS
  | 0, _, _ => .ub
  | f + 1, st, s =>
    (lex st).bind fun (t, st) =>
    match t with
    | none => .ok s
    | some t => (token cap s t).bind (parseLoop cap f st)

/-- What follows the loop (cregex_prv.c 912-926). -/
def finishComp (cap : Nat) (icase : Bool) (s : PS) : R (Prog × Nat) :=
  (evaluntil cap 1 s.ators s.x).bind fun (o, x) =>
  (operand cap { s with x := x, ators := o } .fin).bind fun s =>
  (evaluntil cap 1 s.ators s.x).bind fun (_, x) =>
  if s.nbra ≠ 0 then .err .unmatchedLeft
  else
    match x.ands with
    | [] => .ub
    | n :: _ =>
      match optimize x.h (x.h.length + 1) 0 with
      | none => .ub
      | some h => .ok (⟨h, n.first, icase⟩, s.cursub)

/-- `cregex_compile_pro` (cregex_prv.c 863-930, 1275-1280) with the pattern `pat` (that has no 0) of
`bytes` bytes, and the flags CREG_ICASE and CREG_DOTALL; the memory is there. -/
def regcomp (ic dot : Bool) (bytes : Nat) (pat : List Nat) : R (Prog × Nat) :=
  (parseLoop (5 + 6 * bytes) (pat.length + 1) ⟨pat ++ [0], false, ic, dot, 0⟩ ps0).bind (finishComp (5 + 6 * bytes) ic)

theorem compile_finish (cap : Nat) (ic : Bool) (ts : List (Tok Op)) : compile cap ic ts = (tokens cap ts ps0).bind (finishComp cap ic) := rfl

end Verif.Regex
