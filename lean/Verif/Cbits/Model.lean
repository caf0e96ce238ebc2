/-
Model of `cbits` (include/stc/cbits.h), 64-bit words. The buffer is the list of its words; an
access outside it is undefined (`none`). `ok` is the outcome of an allocation.
-/
namespace Verif.Cbits

/-- cbits.h:155 (dynamic) and 226 (fixed size): `{ uintptr_t *buffer; isize _size; }`. -/
structure Bits where
  words : List (BitVec 64)
  size : Nat

/-- cbits.h:69 `_cbits_bit(i)`. -/
def bit (i : Nat) : BitVec 64 := 1#64 <<< (i % 64)

/-- cbits.h:70 `_cbits_words(n)`. -/
def nWords (n : Nat) : Nat := (n + 63) / 64

/-- `set->buffer[k] = f(set->buffer[k])`. -/
def upd (s : Bits) (k : Nat) (f : BitVec 64 → BitVec 64) : Option Bits := do
  let w ← s.words[k]?
  some { s with words := s.words.set k (f w) }

/-- the value of `-(int)value` as a word: cbits.h:190, 252, 272. -/
def fillWord (v : Bool) : BitVec 64 := if v then BitVec.allOnes 64 else 0#64

/-- cbits.h:259-260 `_test`. -/
def test (s : Bits) (i : Nat) : Option Bool := do
  let w ← s.words[i / 64]?
  some ((w &&& bit i) != 0#64)

/-- cbits.h:262-263 `_at` (asserts the index). -/
def at' (s : Bits) (i : Nat) : Option Bool := if i < s.size then test s i else none

/-- cbits.h:265-266 `_set`. -/
def set (s : Bits) (i : Nat) : Option Bits := upd s (i / 64) (· ||| bit i)

/-- cbits.h:268-269 `_reset`. -/
def reset (s : Bits) (i : Nat) : Option Bits := upd s (i / 64) (· &&& ~~~ bit i)

/-- cbits.h:271-273 `_set_value`. -/
def setValue (s : Bits) (i : Nat) (b : Bool) : Option Bits :=
  upd s (i / 64) (fun w => w ^^^ ((fillWord b ^^^ w) &&& bit i))

/-- cbits.h:275-276 `_flip`. -/
def flip (s : Bits) (i : Nat) : Option Bits := upd s (i / 64) (· ^^^ bit i)

/-- A loop `while (n--) buffer[n] = f(n, buffer[n])`. -/
def downLoop (f : Nat → BitVec 64 → Option (BitVec 64)) : Nat → List (BitVec 64) → Option (List (BitVec 64))
  | 0, ws => some ws
  | n + 1, ws => do
    let w ← ws[n]?
    let w' ← f n w
    downLoop f n (ws.set n w')

/-- cbits.h:278-281 `_flip_all`. -/
def flipAll (s : Bits) : Option Bits := do
  let ws ← downLoop (fun _ w => some (w ^^^ ~~~ 0#64)) (nWords s.size) s.words
  some { s with words := ws }

/-- cbits.h:251-252 `_set_all`: `memset` of the whole words. -/
def setAll (s : Bits) (v : Bool) : Option Bits := do
  let ws ← downLoop (fun _ _ => some (fillWord v)) (nWords s.size) s.words
  some { s with words := ws }

/-- cbits.h:254-257 `_set_pattern`. -/
def setPattern (s : Bits) (p : BitVec 64) : Option Bits := do
  let ws ← downLoop (fun _ _ => some p) (nWords s.size) s.words
  some { s with words := ws }

/-- cbits.h:291-307 `_intersect`, `_union`, `_xor`. -/
def combine (op : BitVec 64 → BitVec 64 → BitVec 64) (s o : Bits) : Option Bits :=
  if s.size = o.size then do
    let ws ← downLoop (fun n w => do let v ← o.words[n]?; some (op w v)) (nWords s.size) s.words
    some { s with words := ws }
  else none

/-- cbits.h:291-295. -/
def intersect (s o : Bits) : Option Bits := combine (· &&& ·) s o
/-- cbits.h:297-301. -/
def union (s o : Bits) : Option Bits := combine (· ||| ·) s o
/-- cbits.h:303-307. -/
def xor (s o : Bits) : Option Bits := combine (· ^^^ ·) s o

/-- A freshly allocated buffer of unspecified contents (`junk`), words for `n` bits. -/
def fresh (junk : Nat → BitVec 64) (n : Nat) : Bits := ⟨(List.range (nWords n)).map junk, n⟩

/-- cbits.h:209-213 `cbits_with_size`, 236-240 for fixed size; a failed allocation is not
checked. -/
def withSize (ok : Bool) (junk : Nat → BitVec 64) (n : Nat) (v : Bool) : Option Bits :=
  if ok then setAll (fresh junk n) v else none

/-- cbits.h:215-219 `cbits_with_pattern`. -/
def withPattern (ok : Bool) (junk : Nat → BitVec 64) (n : Nat) (p : BitVec 64) : Option Bits :=
  if ok then setPattern (fresh junk n) p else none

/-- cbits.h:283-288, the loop of `_from`. -/
def fromLoop (str : List Char) : Nat → Bits → Option Bits
  | 0, s => some s
  | n + 1, s => do
    let c ← str[n]?
    let s ← (match c == '1' with | true => set s n | false => some s)
    fromLoop str n s

/-- cbits.h:283-288 `_from`. -/
def fromStr (ok : Bool) (junk : Nat → BitVec 64) (str : List Char) : Option Bits := do
  let s ← withSize ok junk str.length false
  fromLoop str str.length s

/-- cbits.h:190-195, the part of `cbits_resize` for a larger size: fill the new words, then fix
the tail of the last old word. `ws` has already the new length. -/
def growFill (ws : List (BitVec 64)) (osize size : Nat) (v : Bool) : Option (List (BitVec 64)) := do
  let ow := nWords osize
  let ws := ws.take ow ++ List.replicate (nWords size - ow) (fillWord v)
  if osize % 64 ≠ 0 then do
    let w ← ws[ow - 1]?
    let mask := bit osize - 1#64
    some (ws.set (ow - 1) (if v then w ||| ~~~ mask else w &&& mask))
  else some ws

/-- cbits.h:184-198 `cbits_resize`. `realloc` to no bytes is undefined (C23). New memory has
unspecified contents. -/
def resize (ok : Bool) (junk : Nat → BitVec 64) (s : Bits) (size : Nat) (v : Bool) : Option (Bits × Bool) :=
  if size = 0 then none
  else if ok then
    let nw := nWords size
    let ws := s.words.take nw ++ (List.range (nw - s.words.length)).map junk
    if size > s.size then do
      let ws ← growFill ws s.size size v
      some (⟨ws, size⟩, true)
    else some (⟨ws, size⟩, true)
  else some (s, false)

/-- cbits.h:75-87 `c_popcount`, the compiler builtin: the number of one bits. -/
def popcount (w : BitVec 64) : Nat := ((List.range 64).filter (fun i => w.getLsbD i)).length

/-- cbits.h:82-87 `c_popcount`, the portable version. -/
def popcountPortable (x : BitVec 64) : Nat :=
  let x := x - ((x >>> 1) &&& 0x5555555555555555#64)
  let x := (x &&& 0x3333333333333333#64) + ((x >>> 2) &&& 0x3333333333333333#64)
  let x := (x + (x >>> 4)) &&& 0x0f0f0f0f0f0f0f0f#64
  ((x * 0x0101010101010101#64) >>> 56).toNat

/-- cbits.h:105-106, the loop of `_cbits_count`, `n` words from `i`. -/
def countLoop (ws : List (BitVec 64)) : Nat → Nat → Option Nat
  | 0, _ => some 0
  | n + 1, i => do
    let w ← ws[i]?
    let c ← countLoop ws n (i + 1)
    some (popcount w + c)

/-- cbits.h:107-108, the partial last word. -/
def countTail (s : Bits) : Option Nat :=
  if s.size % 64 ≠ 0 then do
    let w ← s.words[s.size / 64]?
    some (popcount (w &&& (bit s.size - 1#64)))
  else some 0

/-- cbits.h:102-110 `_cbits_count`. -/
def count (s : Bits) : Option Nat := do
  let c ← countLoop s.words (s.size / 64) 0
  let t ← countTail s
  some (c + t)

/-- cbits.h:126-129, the loop of `_cbits_OPR`: false at the first word violating `chk`. -/
def oprLoop (chk : BitVec 64 → BitVec 64 → Bool) (a b : List (BitVec 64)) : Nat → Nat → Option Bool
  | 0, _ => some true
  | n + 1, i => do
    let x ← a[i]?
    let y ← b[i]?
    if chk x y then oprLoop chk a b n (i + 1) else some false

/-- cbits.h:130-133, the partial last word. -/
def oprTail (chk : BitVec 64 → BitVec 64 → Bool) (s o : Bits) : Option Bool :=
  if s.size % 64 = 0 then some true
  else do
    let x ← s.words[s.size / 64]?
    let y ← o.words[s.size / 64]?
    some (chk x y)

/-- cbits.h:125-133 `_cbits_OPR`, with the word test `chk` and the masked test `chkM`. -/
def opr (chk chkM : BitVec 64 → BitVec 64 → Bool) (s o : Bits) : Option Bool :=
  if s.size = o.size then do
    let r ← oprLoop chk s.words o.words (s.size / 64) 0
    if r then oprTail chkM s o else some false
  else none

/-- cbits.h:135-136, 315-318 `_subset_of`. -/
def subsetOf (s o : Bits) : Option Bool :=
  opr (fun x y => (x ||| y) == x)
    (fun x y => ((x ||| y) &&& (bit s.size - 1#64)) == (x &&& (bit s.size - 1#64))) s o

/-- cbits.h:138-139, 320-323 `_disjoint`. -/
def disjoint (s o : Bits) : Option Bool :=
  opr (fun x y => (x &&& y) == 0#64)
    (fun x y => ((x &&& y) &&& (bit s.size - 1#64)) == (0#64 &&& (bit s.size - 1#64))) s o

/-- cbits.h:118-120, the loop of `_cbits_to_str`. -/
def strLoop (s : Bits) : Nat → Nat → Option (List Char)
  | 0, _ => some []
  | n + 1, i => do
    let w ← s.words[i / 64]?
    let cs ← strLoop s n (i + 1)
    some ((if (w &&& bit i) != 0#64 then '1' else '0') :: cs)

/-- cbits.h:112-123 `_cbits_to_str`: the characters before the terminating NUL. -/
def toStr (s : Bits) (start stop : Nat) : Option (List Char) :=
  let stop := if stop > s.size then s.size else stop
  if start ≤ stop then strLoop s (stop - start) start else none

/-- cbits.h:169-173 `cbits_clone`. -/
def clone (ok : Bool) (s : Bits) : Option Bits :=
  if ok then some ⟨s.words.take (nWords s.size), s.size⟩ else none

/-- cbits.h:175-182 `cbits_copy` (distinct objects). -/
def copy (ok : Bool) (s o : Bits) : Option Bits :=
  if s.size ≠ o.size then clone ok o
  else some { s with words := o.words.take (nWords o.size) }

/-- One API call. -/
inductive Op where
  | set (i : Nat)
  | reset (i : Nat)
  | setValue (i : Nat) (b : Bool)
  | flip (i : Nat)
  | flipAll
  | setAll (v : Bool)
  | setPattern (p : BitVec 64)
  | intersect (o : Bits)
  | union (o : Bits)
  | xor (o : Bits)
  | resize (ok : Bool) (junk : Nat → BitVec 64) (n : Nat) (v : Bool)
  | copy (o : Bits)

/-- Execute one call; the reply is the result of `resize`. -/
def step (s : Bits) : Op → Option (Bits × Bool)
  | .set i => do let s ← set s i; some (s, true)
  | .reset i => do let s ← reset s i; some (s, true)
  | .setValue i b => do let s ← setValue s i b; some (s, true)
  | .flip i => do let s ← flip s i; some (s, true)
  | .flipAll => do let s ← flipAll s; some (s, true)
  | .setAll v => do let s ← setAll s v; some (s, true)
  | .setPattern p => do let s ← setPattern s p; some (s, true)
  | .intersect o => do let s ← intersect s o; some (s, true)
  | .union o => do let s ← union s o; some (s, true)
  | .xor o => do let s ← xor s o; some (s, true)
  | .resize ok junk n v => resize ok junk s n v
  | .copy o => do let s ← copy true s o; some (s, true)

end Verif.Cbits
