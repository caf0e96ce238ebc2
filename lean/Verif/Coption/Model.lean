import Verif.Base
/-
Model of include/stc/coption.h. C strings are lists of (non-zero) character codes; `argv` is a list of
strings, `argc` its length; pointers into strings are the strings they point to. none means an access
out of bounds. Simplified: `char` values are natural numbers (no sign), `int` does not overflow.
-/
namespace Verif.Coption

abbrev Str := List Nat

/-- `coption_type` (coption.h 68-72). -/
inductive Kind where
  | no | required | optional
deriving DecidableEq, Repr

/-- `coption_long` (coption.h 74-78). -/
structure Long where
  name : Str
  type : Kind
  val : Int

/-- `coption` (coption.h 80-87), without the buffer `_optstr`. -/
structure Opt where
  ind : Nat
  opt : Int
  optstr : Option Str
  arg : Option Str
  i : Nat
  pos : Int
  nargs : Nat

/-- `coption_init` (coption.h 89-92). -/
def init : Opt := ⟨1, 0, none, none, 1, 0, 0⟩

/-- `'-'` -/
def dash : Nat := 45
/-- `'='` -/
def equals : Nat := 61
/-- `':'` -/
def colon : Nat := 58
/-- `'?'` -/
def quest : Int := 63
/-- `'+'` -/
def plus : Nat := 43

/-- `s[k]` for a C string, with its terminator. -/
def chr (s : Str) (k : Nat) : Option Nat := if k < s.length then s[k]? else if k = s.length then some 0 else none

/-- `argv[i][k]`. -/
def argCh (argv : List Str) (i k : Nat) : Option Nat := (argv[i]?).bind fun a => chr a k

/-- The loop of `coption_permute_` (coption.h 98-99), `k` counting up to `n`. -/
def shiftLoop (argv : List Str) (j : Nat) : Nat → Nat → Option (List Str)
  | _, 0 => some argv
  | k, f + 1 => do
    let q ← argv[j - k - 1]?
    guard (k + 1 ≤ j ∧ j - k < argv.length)
    shiftLoop (argv.set (j - k) q) j (k + 1) f

/-- `coption_permute_` (coption.h 94-101). -/
def permute (argv : List Str) (j n : Nat) : Option (List Str) := do
  let p ← argv[j]?
  let argv ← shiftLoop argv j 0 n
  guard (n ≤ j)
  some (argv.set (j - n) p)

/-- `argv[i][0] != '-' || argv[i][1] == '\0'` (coption.h 112, 116). -/
def nonOption (argv : List Str) (i : Nat) : Option Bool := do
  let c ← argCh argv i 0
  if c ≠ dash then some true
  else do
    let d ← argCh argv i 1
    some (decide (d = 0))

/-- The loop of coption.h 112-113 (`f` at least `argc - _i`). -/
def skip (argv : List Str) : Nat → Opt → Option Opt
  | 0, o => some o
  | f + 1, o =>
    if o.i < argv.length then
      (nonOption argv o.i).bind fun b =>
        if b then skip argv f { o with i := o.i + 1, nargs := o.nargs + 1 } else some o
    else some o

/-- The end of the option name (coption.h 130): the characters from index `j` on. -/
def nameEnd : Str → Nat → Nat
  | [], j => j
  | c :: cs, j => if c = equals then j else nameEnd cs (j + 1)

/-- `strncmp(a, b, n) == 0`. -/
def strncmpEq : Nat → Str → Str → Bool
  | 0, _, _ => true
  | _ + 1, [], [] => true
  | n + 1, x :: xs, y :: ys => decide (x = y) && strncmpEq n xs ys
  | _ + 1, _, _ => false

/-- `n_exact`, `o_exact`, `n_partial`, `o_partial` (coption.h 128-129). -/
structure Found where
  nExact : Nat
  exact : Option Long
  nPartial : Nat
  part : Option Long

/-- The loop over the long options (coption.h 131-135), `m = j - 2`. -/
def findLong (name : Str) (m : Nat) : List Long → Found → Option Found
  | [], r => some r
  | l :: ls, r =>
    if strncmpEq m name l.name then
      (chr l.name m).bind fun c =>
        findLong name m ls (if c = 0 then { r with nExact := r.nExact + 1, exact := some l } else { r with nPartial := r.nPartial + 1, part := some l })
    else findLong name m ls r

/-- The argument of a long option (coption.h 141-149). -/
def longArg (argv : List Str) (o : Opt) (a : Str) (j : Nat) (l : Long) : Option (Opt × Int) := do
  let c ← chr a j
  if l.type ≠ .no then
    if c = equals then some ({ o with arg := some (a.drop (j + 1)) }, l.val)
    else if c = 0 ∧ o.i + 1 < argv.length then do
      let d ← argCh argv (o.i + 1) 0
      if l.type = .required ∨ d ≠ dash then do
        let x ← argv[o.i + 1]?
        some ({ o with i := o.i + 1, arg := some x }, l.val)
      else some (o, l.val)
    else if l.type = .required then some (o, (colon : Int))
    else some (o, l.val)
  else some (o, l.val)

/-- `coption_permute_` for the arguments just processed (coption.h 173-174), `j` from `i0`. -/
def permuteAll (argv : List Str) (n : Nat) : Nat → Nat → Option (List Str)
  | _, 0 => some argv
  | j, f + 1 => (permute argv j n).bind fun argv => permuteAll argv n (j + 1) f

/-- The condition of coption.h 170. -/
def atEnd (argv : List Str) (o : Opt) : Option Bool :=
  if o.pos < 0 then some true else (argCh argv o.i o.pos.toNat).bind fun c => some (decide (c = 0))

/-- The permutation of coption.h 172-174, if there are arguments to move over. -/
def permuteIf (argv : List Str) (n i0 i : Nat) : Option (List Str) :=
  if n > 0 then permuteAll argv n i0 (i - i0) else some argv

/-- The end of `coption_get` (coption.h 170-177). -/
def finish (argv : List Str) (o : Opt) (i0 : Nat) (optc : Int) : Option (Int × Opt × List Str) := do
  let b ← atEnd argv o
  if b then do
    let argv ← permuteIf argv o.nargs i0 (o.i + 1)
    some (optc, { o with i := o.i + 1, pos := 0, ind := o.i + 1 - o.nargs }, argv)
  else some (optc, { o with ind := o.i - o.nargs }, argv)

/-- A long option (coption.h 126-151). -/
def getLong (argv : List Str) (o : Opt) (longs : Option (List Long)) : Option (Int × Opt × List Str) := do
  let i0 := o.i
  let o := { o with pos := -1 }
  match longs with
  | none => finish argv o i0 quest
  | some ls => do
    let a ← argv[o.i]?
    let j := nameEnd (a.drop 2) 2
    let r ← findLong (a.drop 2) (j - 2) ls ⟨0, none, 0, none⟩
    let o := { o with optstr := some a }
    if r.nExact > 1 ∨ (r.nExact = 0 ∧ r.nPartial > 1) then some (quest, o, argv)
    else
      match (if r.nExact = 1 then r.exact else if r.nPartial = 1 then r.part else none) with
      | none => finish argv o i0 quest
      | some l => do
        let q ← longArg argv { o with opt := l.val } a j l
        finish argv q.1 i0 q.2

/-- The position behind the first occurrence of a character: `strchr(s, c)`, returning what follows. -/
def strchr (c : Nat) : Str → Option Str
  | [] => none
  | x :: xs => if x = c then some xs else strchr c xs

/-- The argument of a short option whose letter is followed by `:` in the specification
(coption.h 161-166); `p2` is the character behind that. -/
def shortArg (argv : List Str) (o : Opt) (p2 : Nat) : Option (Opt × Int) := do
  let c ← argCh argv o.i o.pos.toNat
  let a ← argv[o.i]?
  if c ≠ 0 then some ({ o with arg := some (a.drop o.pos.toNat) }, o.opt)
  else if o.i + 1 < argv.length then do
    let d ← argCh argv (o.i + 1) 0
    if p2 ≠ colon ∨ d ≠ dash then do
      let x ← argv[o.i + 1]?
      some ({ o with i := o.i + 1, arg := some x }, o.opt)
    else some (o, o.opt)
  else if p2 ≠ colon then some (o, (colon : Int))
  else some (o, o.opt)

/-- A short option (coption.h 152-169). -/
def getShort (argv : List Str) (o : Opt) (shorts : Str) : Option (Int × Opt × List Str) := do
  let i0 := o.i
  let o : Opt := if o.pos = 0 then { o with pos := 1 } else o
  let c ← argCh argv o.i o.pos.toNat
  let o : Opt := { o with pos := o.pos + 1, opt := (c : Int), optstr := some [dash, c] }
  match strchr c shorts with
  | none => finish argv o i0 quest
  | some p =>
    if p[0]? = some colon then do
      let q ← shortArg argv o (p.getD 1 0)
      finish argv { q.1 with pos := -1 } i0 q.2
    else finish argv o i0 o.opt

/-- `posixly_correct` (coption.h 110). -/
def posix (shorts : Option Str) : Bool := decide ((shorts.bind (fun s => s[0]?)) = some plus)

/-- Skipping what is not an option (coption.h 111-114). -/
def skipIf (o : Opt) (argv : List Str) (shorts : Option Str) : Option Opt :=
  if posix shorts then some o else skip argv (argv.length - o.i) o

/-- Whether there is no option here (coption.h 116). -/
def noMore (o : Opt) (argv : List Str) : Option Bool :=
  if argv.length ≤ o.i then some true else nonOption argv o.i

/-- `coption_get` (coption.h 108-178). -/
def get (o : Opt) (argv : List Str) (shorts : Option Str) (longs : Option (List Long)) : Option (Int × Opt × List Str) := do
  let o ← skipIf o argv shorts
  let o := { o with opt := 0, optstr := none, arg := none }
  let b ← noMore o argv
  if b then some (-1, { o with ind := o.i - o.nargs }, argv)
  else do
    let d ← argCh argv o.i 1
    if d = dash then do
      let e ← argCh argv o.i 2
      if e = 0 then do
        let argv ← permute argv o.i o.nargs
        some (-1, { o with i := o.i + 1, ind := o.i + 1 - o.nargs }, argv)
      else getLong argv o longs
    else
      match shorts with
      | some s => getShort argv o s
      | none => finish argv o o.i (-1)

/-- The loop of a program: calling `coption_get` until it returns -1, with what each call reported; none
if that takes more than `f` calls. -/
def run : Nat → Opt → List Str → Option Str → Option (List Long) → Option (List (Int × Int × Option Str) × Opt × List Str)
  | 0, _, _, _, _ => none
  | f + 1, o, argv, shorts, longs =>
    (get o argv shorts longs).bind fun r =>
      if r.1 = -1 then some ([], r.2.1, r.2.2)
      else (run f r.2.1 r.2.2 shorts longs).bind fun q => some ((r.1, r.2.1.opt, r.2.1.arg) :: q.1, q.2)

end Verif.Coption
