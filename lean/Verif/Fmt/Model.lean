import Verif.Base
/-
Model of include/c11/fmt.h: the translation of `{}` formats to `printf` formats and the string stream.

A `char` is a `Char`; the code only compares it with ASCII characters. A pointer into the format is the
list of characters from there to the end of the object, the terminator included; reading behind the end
is `none`. The output buffer `_fs` is the list of the characters written so far; writing more than `cap`
of them is `none`. The variable arguments are the list of those not taken yet; taking one more is `none`.
Not modelled: `printf` itself (`vsnprintf` is a parameter: the text it produces), `fmt_time`.
-/
namespace Verif.Fmt

/-- `'\0'` -/
def nul : Char := Char.ofNat 0

/-- `FMT_MAX` (fmt.h 103-105). -/
def FMT_MAX : Nat := 128

/-- `*p++ = c`. -/
def put (cap : Nat) (out : List Char) (c : Char) : Option (List Char) :=
  if out.length < cap then some (out ++ [c]) else none

/-- `while (*arg) *p++ = *arg++` (fmt.h 274) and the two `memcpy` (fmt.h 270, 271). -/
def putAll (cap : Nat) : List Char → List Char → Option (List Char)
  | out, [] => some out
  | out, c :: cs => (put cap out c).bind fun out => putAll cap out cs

/-- `va_arg(args, char*)`. -/
def vaArg : List (List Char) → Option (List Char × List (List Char))
  | [] => none
  | a :: as => some (a, as)

/-- The variables of `_fmt_parse` (fmt.h 237-239) that change while a field is read. -/
structure Fld where
  n : Nat
  args : List (List Char)
  arg : List Char
  out : List Char
  p0 : Option Nat

/-- The loop over the modifiers (fmt.h 260-267): where it stops, the character before that, the state. -/
def modLoop (cap nargs : Nat) : List Char → Char → Fld → Option (List Char × Char × Fld)
  | [], _, _ => none
  | c :: r, last, s =>
    if c = nul then some (c :: r, last, { s with n := 99 })
    else if c = '}' then some (c :: r, last, s)
    else if c = '<' then
      (put cap s.out '-').bind fun out => modLoop cap nargs r c { s with out := out }
    else if c = '>' then modLoop cap nargs r c { s with p0 := none }
    else if c = '-' then modLoop cap nargs r c s
    else if c = '*' then
      if s.n + 1 ≤ nargs then
        (vaArg s.args).bind fun a =>
          (put cap s.out c).bind fun out =>
            modLoop cap nargs r c { s with n := s.n + 1, arg := a.1, args := a.2, out := out }
      else
        (put cap s.out c).bind fun out => modLoop cap nargs r c { s with n := s.n + 1, out := out }
    else (put cap s.out c).bind fun out => modLoop cap nargs r c { s with out := out }

/-- The string searched by `strchr` (fmt.h 273). -/
def convs : List Char := "csdioxXufFeEaAgGnp".toList

/-- `switch (*arg)` (fmt.h 269-272): the default precision; what is left of `arg`. -/
def precision (cap : Nat) (empty : Bool) (arg out : List Char) : Option (List Char × List Char) :=
  match arg with
  | 'g' :: _ => (if empty then putAll cap out ".8".toList else some out).map fun out => (arg, out)
  | '@' :: r => (if empty then putAll cap out ".16".toList else some out).map fun out => (r, out)
  | _ => some (arg, out)

/-- Left-align text (fmt.h 275-276): `p0` is an index into the output. -/
def leftAlign (cap : Nat) (p0 : Option Nat) (out : List Char) : Option (List Char) :=
  match p0 with
  | none => some out
  | some k =>
    if out.getLast? = some 's' ∨ out.getLast? = some 'c' then
      if out.length < cap then some (out.take k ++ '-' :: out.drop k) else none
    else some out

/-- The state of `_fmt_parse` between two pieces of the format. -/
structure St where
  n : Nat
  args : List (List Char)
  out : List Char

/-- A field (fmt.h 253-278), `r` being the format behind the brace. -/
def field (cap nargs : Nat) (r : List Char) (s : St) : Option (List Char × St) :=
  r.head?.bind fun c =>
  let n := if c ≠ ':' ∧ c ≠ '}' then 99 else s.n + 1
  let start := if c = ':' then (r.tail, ':') else (r, '{')
  start.1.head?.bind fun e =>
  (vaArg s.args).bind fun a =>
  (put cap s.out '%').bind fun out =>
  (modLoop cap nargs start.1 start.2 ⟨n, a.2, a.1, out, some out.length⟩).bind fun (r, last, f) =>
  (precision cap (e = '}') f.arg f.out).bind fun (arg, out) =>
  (if last ∈ convs then some out else putAll cap out arg).bind fun out =>
  (leftAlign cap f.p0 out).bind fun out =>
  r.head?.bind fun c =>
  some (if c = '}' then r.tail else r, ⟨f.n, f.args, out⟩)

/-- The main loop of `_fmt_parse` (fmt.h 242-281). -/
def loop (cap nargs : Nat) : Nat → List Char → St → Option St
  | 0, _, _ => none
  | _ + 1, [], _ => none
  | fuel + 1, ch :: r, s =>
    if ch = '%' then
      (put cap s.out '%').bind fun out => (put cap out ch).bind fun out =>
        loop cap nargs fuel r { s with out := out }
    else if ch = '}' then
      r.head?.bind fun c =>
        if c = '}' then (put cap s.out c).bind fun out => loop cap nargs fuel r.tail { s with out := out }
        else loop cap nargs fuel r { s with n := 99 }
    else if ch = '{' then
      r.head?.bind fun c =>
        if c = '{' then (put cap s.out c).bind fun out => loop cap nargs fuel r.tail { s with out := out }
        else if nargs < s.n + 1 then loop cap nargs fuel r { s with n := s.n + 1 }
        else (field cap nargs r s).bind fun x => loop cap nargs fuel x.1 x.2
    else
      (put cap s.out ch).bind fun out =>
        if ch = nul then some { s with out := out } else loop cap nargs fuel r { s with out := out }

/-- `_fmt_parse` (fmt.h 237-284): the returned number and what is in the buffer. -/
def parse (cap : Nat) (fmt : List Char) (args : List (List Char)) : Option (Nat × List Char) :=
  (loop cap args.length (fmt.length + 1) fmt ⟨0, args, []⟩).map fun s => (s.n, s.out)

/-- The types `_fc` distinguishes (fmt.h 176-197). -/
inductive CType where
  | bool | uchar | schar | char | short | ushort | int | uint | long | ulong | llong | ullong
  | float | double | ldouble | str | wstr | ptr
deriving DecidableEq, Repr

/-- `_fc` (fmt.h 176-197), on compilers where `signed char` has its entry. -/
def fc : CType → List Char
  | .bool => "d".toList
  | .uchar => "hhu".toList
  | .schar => "c".toList
  | .char => "c".toList
  | .short => "hd".toList
  | .ushort => "hu".toList
  | .int => "d".toList
  | .uint => "u".toList
  | .long => "ld".toList
  | .ulong => "lu".toList
  | .llong => "lld".toList
  | .ullong => "llu".toList
  | .float => "g".toList
  | .double => "@g".toList
  | .ldouble => "@Lg".toList
  | .str => "s".toList
  | .wstr => "ls".toList
  | .ptr => "p".toList

/-- What `fmt_printd` does with a format and arguments. -/
inductive Out where
  /-- `fmt_OK` fails -/
  | abort
  /-- the `printf` function is called with this format (up to its terminator) -/
  | print (format : List Char)
deriving DecidableEq

/-- `fmt_printd_2` … `fmt_printd_14` (fmt.h 114-157), assertions enabled. -/
def printd (fmt : List Char) (ts : List CType) : Option Out :=
  (parse FMT_MAX fmt (ts.map fc)).map fun (n, fs) =>
    if n ≠ ts.length then .abort
    else .print ((if ts = [] then fmt else fs).takeWhile (· ≠ nul))

/-- `fmt_stream` (fmt.h 82-86); `data` is the block of `cap + 1` bytes, or NULL. -/
structure Stream where
  data : Option (Buf Char)
  cap : Nat
  len : Nat
  overwrite : Bool

/-- `vsnprintf(data + pos, n + 1, …)` for a text of `n` bytes. -/
def writeAt (data : Buf Char) (pos : Nat) (t : List Char) : Option (Buf Char) :=
  if pos + t.length + 1 ≤ data.length then
    some (data.take pos ++ t.map some ++ some nul :: data.drop (pos + t.length + 1))
  else none

/-- `realloc(data, size)`: the old bytes, cut or followed by indeterminate ones. -/
def realloc (data : Option (Buf Char)) (size : Nat) : Buf Char :=
  ((data.getD []).take size) ++ List.replicate (size - (data.getD []).length) none

/-- `_fmt_sprint` on a stream (fmt.h 216-235): `t` is the text `vsnprintf` makes (`none` if it fails),
`ok` says whether `realloc` succeeds. The arguments do not point into the stream's own block. -/
def sprint (ss : Stream) (t : Option (List Char)) (ok : Bool) : Option Stream :=
  match t with
  | none => some ss
  | some t =>
    let pos := if ss.overwrite then 0 else ss.len
    let len := pos + t.length
    let m : Option (Buf Char) × Nat :=
      if ss.cap < len then
        (if ok then some (realloc ss.data (len + ss.cap / 2 + 1)) else none, len + ss.cap / 2)
      else (ss.data, ss.cap)
    m.1.bind fun data => (writeAt data pos t).map fun data => ⟨some data, m.2, len, ss.overwrite⟩

end Verif.Fmt
