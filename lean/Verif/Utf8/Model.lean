import Verif.Utf8.Table
/-
Model of the UTF-8 functions, /repo/include/stc/priv/utf8_prv.h and utf8_prv.c.

Memory behind a `const char*` is the list of bytes from that address to the end of the object it
points into; reading past the list is undefined (`none`). Pointers advance by dropping bytes, so a
returned pointer is modelled by the number of bytes advanced. `uint32_t` code points are `Nat`
with the wrap-around written out.
-/
namespace Verif.Utf8

/-- A byte of memory (`char`, signed when used as a number: `BitVec.toInt`). -/
abbrev Byte := BitVec 8

/-- utf8_prv.h:86 `utf8_decode_t`. -/
structure D where
  state : Nat
  codep : Nat
deriving DecidableEq, Repr

/-- utf8_prv.h:107-112 `utf8_decode`. -/
def decode (d : D) (b : Byte) : Option D := do
  let type ← dtab[b.toNat]?
  let st ← dtab[256 + d.state + type]?
  some ⟨st, if d.state ≠ 0 then ((b.toNat &&& 0x3f) ||| (d.codep <<< 6)) % 2 ^ 32
            else (0xff >>> type) &&& b.toNat⟩

/-- utf8_prv.c:44-67 `utf8_encode`: the bytes written (none when it returns 0). -/
def encode (c : Nat) : List Byte :=
  if c < 0x80 then [BitVec.ofNat 8 c]
  else if c < 0x800 then
    [BitVec.ofNat 8 ((c >>> 6 &&& 0x1F) ||| 0xC0), BitVec.ofNat 8 ((c &&& 0x3F) ||| 0x80)]
  else if c < 0x10000 then
    if c < 0xD800 ∨ c ≥ 0xE000 then
      [BitVec.ofNat 8 ((c >>> 12 &&& 0x0F) ||| 0xE0), BitVec.ofNat 8 ((c >>> 6 &&& 0x3F) ||| 0x80),
       BitVec.ofNat 8 ((c &&& 0x3F) ||| 0x80)]
    else []
  else if c < 0x110000 then
    [BitVec.ofNat 8 ((c >>> 18 &&& 0x07) ||| 0xF0), BitVec.ofNat 8 ((c >>> 12 &&& 0x3F) ||| 0x80),
     BitVec.ofNat 8 ((c >>> 6 &&& 0x3F) ||| 0x80), BitVec.ofNat 8 ((c &&& 0x3F) ||| 0x80)]
  else []

/-- utf8_prv.h:114-120, the loop of `utf8_peek`. -/
def peekLoop (d : D) : List Byte → Option D
  | [] => none
  | b :: m => do
    let d ← decode d b
    if d.state > 12 then peekLoop d m else some d

/-- utf8_prv.h:114-120 `utf8_peek`. -/
def peek (m : List Byte) : Option Nat := do
  let d ← peekLoop ⟨0, 0⟩ m
  some (if d.state = 0 then d.codep else 0xFFFD)

/-- utf8_prv.c:73-78, the loop of `utf8_valid`. -/
def validLoop (d : D) : List Byte → Option Bool
  | [] => none
  | b :: m => do
    let d ← decode d b
    if d.state ≠ 12 ∧ b ≠ 0#8 then validLoop d m else some (d.state == 0)

/-- utf8_prv.c:73-78 `utf8_valid`. -/
def valid (m : List Byte) : Option Bool := validLoop ⟨0, 0⟩ m

/-- utf8_prv.c:80-86, the loop of `utf8_valid_n`. -/
def validNLoop : Nat → D → List Byte → Option Bool
  | 0, d, _ => some (d.state == 0)
  | _ + 1, _, [] => none
  | n + 1, d, b :: m => do
    let d ← decode d b
    if d.state = 12 ∨ b = 0#8 then some (d.state == 0) else validNLoop n d m

/-- utf8_prv.c:80-86 `utf8_valid_n` (`nbytes ≥ 0`). -/
def validN (m : List Byte) (n : Nat) : Option Bool := validNLoop n ⟨0, 0⟩ m

/-- utf8_prv.c:134-140, the length reported for an invalid sequence of which `n` bytes were read. -/
def recover (n : Nat) : Nat := if n > 2 then n - 1 else 1

/-- utf8_prv.c:127-140, the loop of `utf8_decode_codepoint`; `avail = end - start`, `k` bytes have
been read. -/
def dcpLoop (avail : Nat) : D → List Byte → Nat → Option (D × Nat)
  | _, [], _ => none
  | d, b :: m, k => do
    let d ← decode d b
    if d.state = 0 then some (d, k + 1)
    else if d.state = 12 then some (⟨0, 0xFFFD⟩, recover (k + 1))
    else if k + 1 = avail then some (⟨0, 0xFFFD⟩, recover (k + 1))
    else dcpLoop avail d m (k + 1)

/-- utf8_prv.c:127-140 `utf8_decode_codepoint` from state 0: the code point and the number of bytes
consumed. (Callers passing `end = NULL`, i.e. no limit, correspond to any `avail` larger than the
memory.) -/
def decodeCp (m : List Byte) (avail : Nat) : Option (Nat × Nat) := do
  let (d, k) ← dcpLoop avail ⟨0, 0⟩ m 0
  some (d.codep, k)

/-- utf8_prv.c:88-99, 101-112: one entry applied to a code point in its range. -/
def CaseMapping.fold (e : CaseMapping) (c : Nat) : Nat :=
  let d : Int := (e.m2 : Int) - e.c2
  if d = 1 then c + (if e.c2 % 2 = c % 2 then 1 else 0) else ((c : Int) + d).toNat

/-- utf8_prv.c:88-112: the common loop of `utf8_casefold` and `utf8_tolower` over a list of
entries. -/
def foldLoop (c : Nat) : List CaseMapping → Nat
  | [] => c
  | e :: es => if c ≤ e.c2 then (if c < e.c1 then c else e.fold c) else foldLoop c es

/-- utf8_prv.c:88-99 `utf8_casefold`. -/
def casefold (c : Nat) : Nat := foldLoop c (casemappings.take casefoldLen)

/-- The entries selected by an index table. -/
def select (ind : List Nat) : List CaseMapping := ind.filterMap (casemappings[·]?)

/-- utf8_prv.c:101-112 `utf8_tolower`. -/
def tolower (c : Nat) : Nat := foldLoop c (select upcaseInd)

/-- utf8_prv.c:118-121: the inverse of an entry. -/
def CaseMapping.unfold (e : CaseMapping) (c : Nat) : Nat :=
  let d : Int := (e.m2 : Int) - e.c2
  if d = 1 then c - (if e.m2 % 2 = c % 2 then 1 else 0) else ((c : Int) - d).toNat

/-- utf8_prv.c:114-125, the loop of `utf8_toupper`. -/
def upperLoop (c : Nat) : List CaseMapping → Nat
  | [] => c
  | e :: es =>
    if c ≤ e.m2 then (if (c : Int) < (e.c1 : Int) + ((e.m2 : Int) - e.c2) then c else e.unfold c)
    else upperLoop c es

/-- utf8_prv.c:114-125 `utf8_toupper`. -/
def toupper (c : Nat) : Nat := upperLoop c (select lowcaseInd)

/-- Conversion of a 64-bit difference to `int`. -/
def toInt32 (x : Int) : Int := (BitVec.ofInt 32 x).toInt

/-- utf8_prv.c:142-156, the loop of `utf8_icompare`. `m1`, `m2`: memory from the current positions,
`n1`, `n2`: bytes left in the views, `diff = s1.size - s2.size`. -/
def icmpLoop (diff : Int) : Nat → List Byte → Nat → List Byte → Nat → Option Int
  | 0, _, _, _, _ => none
  | f + 1, m1, n1, m2, n2 =>
    if n1 = 0 ∨ n2 = 0 then some (toInt32 diff)
    else do
      let b2 ← m2.head?
      if b2 = 0#8 then do
        let b1 ← m1.head?
        some b1.toInt
      else do
        let (c1, k1) ← decodeCp m1 n1
        let (c2, k2) ← decodeCp m2 n2
        if (casefold c1 : Int) - casefold c2 ≠ 0 then some ((casefold c1 : Int) - casefold c2)
        else icmpLoop diff f (m1.drop k1) (n1 - k1) (m2.drop k2) (n2 - k2)

/-- utf8_prv.c:142-156 `utf8_icompare`. Every iteration consumes a byte of `m1`, so the fuel
suffices. -/
def icompare (m1 : List Byte) (n1 : Nat) (m2 : List Byte) (n2 : Nat) : Option Int :=
  icmpLoop ((n1 : Int) - n2) (m1.length + 1) m1 n1 m2 n2

/-- utf8_prv.h:123-125 `utf8_icmp`. -/
def icmp (m1 m2 : List Byte) : Option Int := icompare m1 (2 ^ 63 - 1) m2 (2 ^ 63 - 1)

/-- `(b & 0xC0) != 0x80`: not a continuation byte. -/
def lead (b : Byte) : Bool := (b &&& 0xC0#8) != 0x80#8

/-- utf8_prv.h:30-38 `utf8_chr_size`. -/
def chrSize (m : List Byte) : Option Nat := do
  let b ← m.head?
  if b.toNat < 0x80 then some 1
  else if b.toNat < 0xE0 then some 2
  else if b.toNat < 0xF0 then some 3
  else some 4

/-- utf8_prv.h:41-46 `utf8_count`. -/
def count : List Byte → Option Nat
  | [] => none
  | b :: m =>
    if b = 0#8 then some 0
    else do
      let b' ← m.head?
      let n ← count m
      some ((if lead b' then 1 else 0) + n)

/-- utf8_prv.h:48-54 `utf8_count_n`: `*s` is read also when no bytes are left. -/
def countN : Nat → List Byte → Option Nat
  | _, [] => none
  | 0, _ :: _ => some 0
  | n + 1, b :: m =>
    if b = 0#8 then some 0
    else do
      let b' ← m.head?
      let k ← countN n m
      some ((if lead b' then 1 else 0) + k)

/-- utf8_prv.h:56-60 `utf8_at`: bytes advanced. -/
def at' : Nat → List Byte → Option Nat
  | 0, [] => none
  | _ + 1, [] => none
  | 0, _ :: _ => some 0
  | pos + 1, b :: m =>
    if b = 0#8 then some 0
    else do
      let b' ← m.head?
      let k ← at' (if lead b' then pos else pos + 1) m
      some (k + 1)

/-- utf8_prv.h:70-71 `utf8_to_index`. -/
def toIndex (m : List Byte) (pos : Nat) : Option Nat := at' pos m

/-- utf8_prv.h:73-78 `utf8_subview`: offset and size. -/
def subview (m : List Byte) (pos len : Nat) : Option (Nat × Nat) := do
  let i ← at' pos m
  let n ← at' len (m.drop i)
  some (i, n)

/-- cstr_prv.c:266-278: the code points yielded by scanning a buffer of exactly these bytes with
`utf8_decode_codepoint` (fuel: the number of bytes suffices). -/
def decodeAll : Nat → List Byte → Option (List Nat)
  | _, [] => some []
  | 0, _ :: _ => none
  | f + 1, b :: m => do
    let (c, k) ← decodeCp (b :: m) (m.length + 1)
    let cs ← decodeAll f ((b :: m).drop k)
    some (c :: cs)

/-- csview.h:165-166 `csview_icmp` of two views each occupying its whole object. -/
def csviewIcmp (a b : List Byte) : Option Int := icompare a a.length b b.length

end Verif.Utf8
