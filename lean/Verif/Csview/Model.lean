import Verif.Utf8.Model
import Verif.Base
/-
Model of string views, /repo/include/stc/csview.h and zsview.h, with the byte-string helpers of
/repo/include/stc/common.h.

As in `Verif.Utf8.Model` a `const char*` is the list of bytes from that address to the end of its
object; `none` is undefined behaviour or a failed `c_assert`. Positions and sizes that can be
negative or overflow are `Int` with explicit 64-bit range checks.
-/
namespace Verif.Csview
open Verif.Utf8

/-- common.h:57 `c_NPOS`. -/
def NPOS : Nat := 2 ^ 63 - 1

/-- C `memcmp`: both ranges must be readable; the result is negative, zero or positive. -/
def memcmpLoop : List Byte → List Byte → Int
  | a :: as, b :: bs => if a = b then memcmpLoop as bs else (a.toNat : Int) - b.toNat
  | _, _ => 0

/-- C `memcmp(p, q, n)` (`c_memcmp`, common.h). -/
def memcmp (p q : List Byte) (n : Nat) : Option Int :=
  if n ≤ p.length ∧ n ≤ q.length then some (memcmpLoop (p.take n) (q.take n)) else none

/-- C `strlen`. -/
def strlen : List Byte → Option Nat
  | [] => none
  | b :: m => if b = 0#8 then some 0 else (strlen m).map (· + 1)

/-- common.h:313: the test `*str == *needle && !c_memcmp(str, needle, nlen)`. -/
def hitAt (str needle : List Byte) (nlen : Nat) : Option Bool := do
  let a ← str.head?
  let b ← needle.head?
  if a = b then (memcmp str needle nlen).map (· == 0) else some false

/-- common.h:312-317, the loop of `c_strnstrn`; `slen` iterations remain after this one. Result:
offset of the match (`some none`: NULL). -/
def strnstrnLoop (needle : List Byte) (nlen : Nat) : Nat → List Byte → Nat → Option (Option Nat)
  | slen, str, off => do
    let hit ← hitAt str needle nlen
    if hit then some (some off)
    else match slen with
      | 0 => some none
      | slen + 1 => strnstrnLoop needle nlen slen str.tail (off + 1)

/-- common.h:308-318 `c_strnstrn`. -/
def strnstrn (str : List Byte) (slen : Nat) (needle : List Byte) (nlen : Nat) : Option (Option Nat) :=
  if nlen = 0 then some (some 0)
  else if nlen > slen then some none
  else strnstrnLoop needle nlen (slen - nlen) str 0

/-- csview.h:61-64 `csview_find_sv`, cstr_prv.c:33-37 `cstr_find_sv`. -/
def findSv (str : List Byte) (slen : Nat) (needle : List Byte) (nlen : Nat) : Option Nat :=
  (strnstrn str slen needle nlen).map (·.getD NPOS)

/-- csview.h:66-67 `csview_find`. -/
def find (str : List Byte) (slen : Nat) (cs : List Byte) : Option Nat := do
  let n ← strlen cs
  findSv str slen cs n

/-- csview.h:69-70 `csview_contains`. -/
def contains (str : List Byte) (slen : Nat) (cs : List Byte) : Option Bool :=
  (find str slen cs).map (· != NPOS)

/-- csview.h:72-75 `csview_starts_with`. -/
def startsWith (str : List Byte) (slen : Nat) (cs : List Byte) : Option Bool := do
  let n ← strlen cs
  if n ≤ slen then (memcmp str cs n).map (· == 0) else some false

/-- csview.h:77-80 `csview_ends_with`. -/
def endsWith (str : List Byte) (slen : Nat) (cs : List Byte) : Option Bool := do
  let n ← strlen cs
  if n ≤ slen then (memcmp (str.drop (slen - n)) cs n).map (· == 0) else some false

/-- csview.h:52-53 `csview_equals_sv`, csview.h:151-152 `csview_eq`, zsview.h:147-148 `zsview_eq`,
cstr_prv.h:301-304 `cstr_eq`. -/
def eqSv (p : List Byte) (n1 : Nat) (q : List Byte) (n2 : Nat) : Option Bool :=
  if n1 = n2 then (memcmp p q n1).map (· == 0) else some false

/-- csview.h:145-149 `csview_cmp`. -/
def cmpSv (p : List Byte) (n1 : Nat) (q : List Byte) (n2 : Nat) : Option Int := do
  let c ← memcmp p q (if n1 < n2 then n1 else n2)
  some (if c ≠ 0 then c else (if n1 > n2 then 1 else 0) - (if n1 < n2 then 1 else 0))

/-- C `strcmp` (zsview.h:144-145 `zsview_cmp`, cstr_prv.h:298-299 `cstr_cmp`). -/
def strcmp : List Byte → List Byte → Option Int
  | a :: as, b :: bs =>
    if a ≠ b then some ((a.toNat : Int) - b.toNat) else if a = 0#8 then some 0 else strcmp as bs
  | _, _ => none

/-! ### sub-views: offset added to the pointer, and new size -/

/-- A value of type `isize`. -/
def inI (x : Int) : Prop := -2 ^ 63 ≤ x ∧ x < 2 ^ 63

instance (x : Int) : Decidable (inI x) := inferInstanceAs (Decidable (_ ∧ _))

/-- `(size_t)x`. -/
def toU (x : Int) : Nat := (x % 2 ^ 64).toNat

/-- csview.h:82-87 `csview_subview`, zsview.h:74-78 `zsview_subview`, cstr_prv.h:182-187
`cstr_subview`. -/
def subview (size pos len : Int) : Option (Int × Int) := do
  guard (toU pos ≤ toU size ∧ len ≥ 0)
  guard (inI (pos + len))
  some (pos, if pos + len > size then size - pos else len)

/-- csview.h:89-94 `csview_slice`. -/
def slice (size p1 p2 : Int) : Option (Int × Int) := do
  guard (toU p1 ≤ toU p2 ∧ toU p1 ≤ toU size)
  some (p1, (if p2 > size then size else p2) - p1)

/-- csview.h:105-106 `csview_tail`. -/
def tail (size len : Int) : Option (Int × Int) := do
  guard (inI (size - len))
  subview size (size - len) len

/-- zsview.h:80-85 `zsview_tail`, cstr_prv.h:189-194 `cstr_tail`. -/
def ztail (size len : Int) : Option (Int × Int) := do
  guard (len ≥ 0)
  let len := if len > size then size else len
  some (size - len, len)

/-- csview.h:196-199: the position of `csview_subview_pro` after adjusting a negative one. -/
def proPos (size pos : Int) : Int :=
  let pos := if pos < 0 then (if pos + size < 0 then 0 else pos + size) else pos
  if pos > size then size else pos

/-- csview.h:195-204 `csview_subview_pro`. -/
def subviewPro (size pos len : Int) : Option (Int × Int) := do
  guard (inI (proPos size pos + len))
  some (proPos size pos, if proPos size pos + len > size then size - proPos size pos else len)

/-! ### trimming -/

/-- `c <= ' '` for a `char` that is signed or unsigned on the platform. -/
def blank (signed : Bool) (b : Byte) : Bool :=
  if signed then decide (b.toInt ≤ 32) else decide (b.toNat ≤ 32)

/-- csview.h:96-97 `csview_trim_start`: offset and size; `m` is the memory from the pointer. -/
def trimStart (signed : Bool) : List Byte → Nat → Option (Nat × Nat)
  | _, 0 => some (0, 0)
  | [], _ + 1 => none
  | b :: m, n + 1 =>
    if blank signed b then (trimStart signed m n).map fun (o, s) => (o + 1, s) else some (0, n + 1)

/-- csview.h:99-100 `csview_trim_end`: the new size. -/
def trimEnd (signed : Bool) (m : List Byte) : Nat → Option Nat
  | 0 => some 0
  | n + 1 => do
    let b ← m[n]?
    if blank signed b then trimEnd signed m n else some (n + 1)

/-- csview.h:102-103 `csview_trim`. -/
def trim (signed : Bool) (m : List Byte) (n : Nat) : Option (Nat × Nat) := do
  let (o, s) ← trimStart signed m n
  let s ← trimEnd signed (m.drop o) s
  some (o, s)

/-! ### tokens -/

/-- csview.h:206-213 `csview_token`: offset and size of the token, and the new position. -/
def token (m : List Byte) (size : Nat) (sep : List Byte) (pos : Nat) : Option ((Nat × Nat) × Nat) := do
  let sepSize ← strlen sep
  let r ← strnstrn (m.drop pos) (size - pos) sep sepSize
  let tok := r.getD (size - pos)
  some ((pos, tok), pos + tok + sepSize)

/-- csview.h:135-138 `c_token_sv`: the tokens seen by the loop (`none`: not finished when the fuel
runs out). -/
def tokens (m : List Byte) (size : Nat) (sep : List Byte) : Nat → Nat → Option (List (Nat × Nat))
  | 0, _ => none
  | f + 1, pos =>
    if pos ≤ size then do
      let (t, pos) ← token m size sep pos
      let ts ← tokens m size sep f pos
      some (t :: ts)
    else some []

/-! ### UTF-8 positions in views -/

/-- csview.h:217-218, 220-221, 235-236: forward over `pos` code points, at most `n` bytes. -/
def fwd : Nat → Nat → List Byte → Option Nat
  | 0, _, _ => some 0
  | _ + 1, 0, _ => some 0
  | _ + 1, _ + 1, [] => none
  | pos + 1, n + 1, _ :: m => do
    let b ← m.head?
    let k ← fwd (if lead b then pos else pos + 1) n m
    some (k + 1)

/-- csview.h:215-223 `csview_u8_subview`. -/
def u8Subview (m : List Byte) (size pos len : Nat) : Option (Nat × Nat) := do
  let o ← fwd pos size m
  let n ← fwd len (size - o) (m.drop o)
  some (o, n)

/-- csview.h:227-228: backward over `n` code points; the argument is the reversed list of bytes
before the pointer, down to the start of the view. -/
def bwd : Nat → List Byte → Nat
  | 0, _ => 0
  | _ + 1, [] => 0
  | n + 1, b :: r => bwd (if lead b then n else n + 1) r + 1

/-- csview.h:225-231 `csview_u8_tail`, zsview.h:92-98 `zsview_u8_tail`, cstr_prv.h:207-213
`cstr_u8_tail`: offset and size. -/
def u8Tail (m : List Byte) (size n : Nat) : Option (Nat × Nat) := do
  guard (size ≤ m.length)
  let k := bwd n (m.take size).reverse
  some (size - k, k)

/-- csview.h:233-240 `csview_u8_at`: position and size of a code point. -/
def u8At (m : List Byte) (size pos : Nat) : Option (Nat × Nat) := do
  let o ← fwd pos size m
  let k ← chrSize (m.drop o)
  guard (o ≠ size)
  some (o, k)

/-- An iterator: position (`none` = NULL) and size of the current character. -/
abbrev Iter := Option Nat × Nat

/-- csview.h:109-113 `csview_begin`, zsview.h:118-120 `zsview_begin`, cstr_prv.h:228-232
`cstr_begin`. -/
def begin (m : List Byte) : Option Iter := do
  let k ← chrSize m
  some (some 0, k)

/-- csview.h:117-121 `csview_next`. -/
def next (m : List Byte) (size p k : Nat) : Option Iter := do
  let k' ← chrSize (m.drop (p + k))
  some (if p + k = size then none else some (p + k), k')

/-- zsview.h:126-130 `zsview_next`, cstr_prv.h:236-240 `cstr_next`. -/
def znext (m : List Byte) (p k : Nat) : Option Iter := do
  let k' ← chrSize (m.drop (p + k))
  let b ← m[p + k]?
  some (if b = 0#8 then none else some (p + k), k')

/-- common.h:164-165 `c_each` with a given `next`: the characters (position, size) visited. -/
def eachFrom (nx : Nat → Nat → Option Iter) : Nat → Iter → Option (List (Nat × Nat))
  | _, (none, _) => some []
  | 0, (some _, _) => none
  | f + 1, (some p, k) => do
    let it ← nx p k
    let l ← eachFrom nx f it
    some ((p, k) :: l)

/-- Iteration over a csview. -/
def each (m : List Byte) (size fuel : Nat) : Option (List (Nat × Nat)) := do
  eachFrom (next m size) fuel (← begin m)

/-- Iteration over a zsview or cstr. -/
def zeach (m : List Byte) (fuel : Nat) : Option (List (Nat × Nat)) := do
  eachFrom (znext m) fuel (← begin m)

/-! ### case-insensitive tests -/

/-- csview.h:156-157 `csview_iequals_sv`, cstr_prv.h:288-291 `cstr_ieq`. -/
def iequalsSv (p : List Byte) (n1 : Nat) (q : List Byte) (n2 : Nat) : Option Bool :=
  if n1 = n2 then (icompare p n1 q n2).map (· == 0) else some false

/-- csview.h:168-171 `csview_istarts_with`, cstr_prv.h:273-277 `cstr_istarts_with`. -/
def istartsWith (str : List Byte) (slen : Nat) (cs : List Byte) : Option Bool := do
  let n ← strlen cs
  if n ≤ slen then (icompare str slen cs n).map (· == 0) else some false

/-- zsview.h:161-162 `zsview_istarts_with`. -/
def zistartsWith (str : List Byte) (slen : Nat) (cs : List Byte) : Option Bool := do
  let n ← strlen cs
  if n ≤ slen then (icmp str cs).map (· == 0) else some false

/-- csview.h:173-176 `csview_iends_with`, zsview.h:164-167 `zsview_iends_with`, cstr_prv.h:279-283
`cstr_iends_with`. -/
def iendsWith (str : List Byte) (slen : Nat) (cs : List Byte) : Option Bool := do
  let n ← strlen cs
  if n ≤ slen then (icmp (str.drop (slen - n)) cs).map (· == 0) else some false

/-! ### hashing -/

/-- `memcpy(&block, msg, n)` into an 8-byte little-endian word that keeps its other bytes. -/
def blend (block : BitVec 64) : List Byte → BitVec 64
  | [] => block
  | b :: bs => ((blend (block >>> 8) bs) <<< 8) ||| b.setWidth 64

/-- common.h:255-260, the loop of `c_basehash_n`. -/
def hashLoop : Nat → BitVec 64 → BitVec 64 → List Byte → Nat → Option (BitVec 64)
  | 0, _, _, _, _ => none
  | f + 1, block, hash, msg, len =>
    if len > 8 then
      if 8 ≤ msg.length then
        let block := blend block (msg.take 8)
        hashLoop f block ((hash ^^^ block) * 0x89bb179901000193#64) (msg.drop 8) (len - 8)
      else none
    else if len ≤ msg.length then
      let block := blend block (msg.take len)
      let hash := (hash ^^^ block) * 0xb0340f4501000193#64
      some (hash ^^^ (hash >>> 3))
    else none

/-- common.h:252-264 `c_basehash_n` (64-bit `size_t`); csview.h:58-59 `csview_hash`, zsview.h:141-142
`zsview_hash`, cstr_prv.c:28-31 `cstr_hash`. -/
def basehash (key : List Byte) (len : Nat) : Option (BitVec 64) :=
  hashLoop (len + 1) 0#64 0x811c9dc5#64 key len

/-- common.h:275-276 `c_hash_str`. -/
def hashStr (s : List Byte) : Option (BitVec 64) := do
  let n ← strlen s
  basehash s n

end Verif.Csview
