import Verif.Csview.Model
/-
Model of the owning string, /repo/include/stc/priv/cstr_prv.h and cstr_prv.c.

A byte of memory is a `Cell`: `none` while it is indeterminate (fresh from `malloc`, or an
uninitialised automatic `cstr`). A string is the 24-byte object in its short form, or a heap block
with size and capacity in its long form. Which of the two is told by the top bit of the last byte
of the object; `Verif.Cstr.Layout` shows that the union encoding distinguishes them as the
constructors here do. `none` is undefined behaviour. Sizes and capacities are `Nat`: that the
`isize` computations `size*3/2 + len` do not overflow is assumed (objects smaller than 2^61 bytes).
The allocator may fail (`ok = false`) where the code looks at its result.
-/
namespace Verif.Cstr
open Verif.Utf8 Verif.Csview

/-- A byte of memory, possibly indeterminate. -/
abbrev Cell := Option Byte

/-- cstr_prv.h:38 `cstr_s_last` (`sizeof(cstr_buf) - 1`, types.h:86-90, 64-bit). -/
def sLast : Nat := 23
/-- cstr_prv.h:39 `cstr_s_cap`. -/
def sCap : Nat := 22

/-- types.h:87-90 `cstr`: short form (24 bytes) or long form (heap block, size, capacity); `null`
is a long form whose data pointer became NULL. -/
inductive Str where
  | short (d : List Cell)
  | long (d : List Cell) (size cap : Nat)
  | null (size cap : Nat)
deriving DecidableEq

/-! ### memory -/

/-- `n` bytes from position `i` of a block. -/
def get (d : List Cell) (i n : Nat) : Option (List Cell) :=
  if i + n ≤ d.length then some ((d.drop i).take n) else none

/-- Store bytes at position `i` of a block. -/
def put (d : List Cell) (i : Nat) (cs : List Cell) : Option (List Cell) :=
  if i + cs.length ≤ d.length then some (d.take i ++ cs ++ d.drop (i + cs.length)) else none

/-- `memmove` inside a block. -/
def memmove (d : List Cell) (dst src n : Nat) : Option (List Cell) := do
  let cs ← get d src n
  put d dst cs

/-- A source pointer: bytes outside the string (from the pointer to the end of their object), or a
position in the string's own buffer. -/
inductive Src where
  | ext (m : List Byte)
  | own (off : Nat)
deriving DecidableEq

/-- The `n` bytes behind a source pointer; `d` is the string's buffer, `stale` tells that a pointer
into it was taken before the buffer moved. -/
def Src.read (d : List Cell) (stale : Bool) (n : Nat) : Src → Option (List Cell)
  | .ext m => if n ≤ m.length then some ((m.take n).map some) else none
  | .own off => if stale then none else get d off n

/-- `memcpy(d + dst, src, n)`: overlap is undefined. -/
def memcpySrc (d : List Cell) (stale : Bool) (dst : Nat) (src : Src) (n : Nat) : Option (List Cell) := do
  let cs ← src.read d stale n
  match src with
  | .ext _ => put d dst cs
  | .own off => if off + n ≤ dst ∨ dst + n ≤ off then put d dst cs else none

/-- `memmove(d + dst, src, n)`. -/
def memmoveSrc (d : List Cell) (stale : Bool) (dst : Nat) (src : Src) (n : Nat) : Option (List Cell) := do
  let cs ← src.read d stale n
  put d dst cs

/-! ### representation -/

/-- cstr_prv.h:63 `cstr_init`. -/
def empty : Str := .short (List.replicate 24 (some 0#8))

/-- cstr_prv.h:87-90 `cstr_getbuf`: data, size, capacity (also `cstr_zv`, `cstr_sv`, 91-98). -/
def getbuf : Str → Option (List Cell × Nat × Nat)
  | .short d => do
    let c ← d[sLast]?
    let b ← c
    some (d, b.toNat, sCap)
  | .long d n cap => some (d, n, cap)
  | .null _ _ => none

/-- The string after its buffer was written. -/
def setBuf (d : List Cell) : Str → Str
  | .short _ => .short d
  | .long _ n cap => .long d n cap
  | .null n cap => .null n cap

/-- cstr_prv.h:152-153 `_cstr_set_size` (macros 41, 53): NUL at `len`, then the size. -/
def setSize (len : Nat) : Str → Option Str
  | .short d => do
    let d ← put d len [some 0#8]
    let d ← put d sLast [some (BitVec.ofNat 8 len)]
    some (.short d)
  | .long d _ cap => do
    let d ← put d len [some 0#8]
    some (.long d len cap)
  | .null _ _ => none

/-- cstr_prv.c:51-60 `_cstr_init` on an uninitialised object. -/
def init (len cap : Nat) : Option Str :=
  if cap > sCap then do
    let d ← put (List.replicate (cap + 1) none) len [some 0#8]
    some (.long d len cap)
  else setSize len (.short (List.replicate 24 none))

/-- `realloc` of a block. -/
def realloc (d : List Cell) (n : Nat) : List Cell := d.take n ++ List.replicate (n - d.length) none

/-- cstr_prv.c:62-82 `cstr_reserve`: the string, and whether its buffer moved. `ok`: whether the
allocator succeeds. -/
def reserve (ok : Bool) (cap : Nat) : Str → Option (Str × Bool)
  | .long d n c =>
    if cap > c then (if ok then some (.long (realloc d (cap + 1)) n cap, true) else some (.null n cap, true))
    else some (.long d n c, false)
  | .short d =>
    if cap > sCap then
      if ok then do
        let c ← d[sLast]?
        let b ← c
        let d ← put (List.replicate (cap + 1) none) 0 d
        some (.long d b.toNat cap, true)
      else none
    else some (.short d, false)
  | .null n c => some (.null n c, false)

/-- The data pointer after a call of `cstr_reserve` (`none` when it is NULL). -/
def data : Str → Option (List Cell)
  | .short d => some d
  | .long d _ _ => some d
  | .null _ _ => none

/-- The bytes readable from `cstr_str`: the contents and the terminator. -/
def mem (s : Str) : Option (List Byte) := do
  let (d, n, _) ← getbuf s
  let cs ← get d 0 (n + 1)
  cs.mapM id

/-- cstr_prv.h:170-171 `cstr_size`. -/
def size (s : Str) : Option Nat := (getbuf s).map (·.2.1)

/-- cstr_prv.h:176-177 `cstr_capacity`. -/
def capacity (s : Str) : Option Nat := (getbuf s).map (·.2.2)

/-! ### construction -/

/-- cstr_prv.h:100-104 `cstr_from_n` (`cstr_from`, `cstr_from_sv`, `cstr_from_zv`, `cstr_lit`,
`cstr_from_s`, `cstr_clone` with the bytes of the argument). -/
def fromN (m : List Byte) (len : Nat) : Option Str := do
  let s ← init len len
  let d ← data s
  let d ← memcpySrc d false 0 (.ext m) len
  some (setBuf d s)

/-- cstr_prv.h:115-119 `cstr_with_size`. -/
def withSize (len : Nat) (v : Byte) : Option Str := do
  let s ← init len len
  let d ← data s
  let d ← put d 0 (List.replicate len (some v))
  some (setBuf d s)

/-- cstr_prv.h:121-125 `cstr_with_capacity`. -/
def withCapacity (cap : Nat) : Option Str := init 0 cap

/-- cstr_prv.h:140-143 `cstr_clone`. -/
def clone (s : Str) : Option Str := do
  let m ← mem s
  let n ← size s
  fromN m n

/-! ### modification -/

/-- cstr_prv.h:155-156 `cstr_clear`. -/
def clear (s : Str) : Option Str := setSize 0 s

/-- cstr_prv.c:86-90: the growing part of `cstr_resize` (`some none`: NULL returned). -/
def grow (ok : Bool) (size n cap : Nat) (v : Byte) (s : Str) : Option (Str × Bool) := do
  let (s, _) ← (if size > cap then reserve ok size s else some (s, false))
  match data s with
  | none => some (s, false)
  | some d => do
    let d ← put d n (List.replicate (size - n) (some v))
    some (setBuf d s, true)

/-- cstr_prv.c:84-93 `cstr_resize`; the flag is false when it returns NULL. -/
def resize (ok : Bool) (sz : Nat) (v : Byte) (s : Str) : Option (Str × Bool) := do
  let (_, n, cap) ← getbuf s
  if sz > n then do
    let (s, fine) ← grow ok sz n cap v s
    if fine then do
      let s ← setSize sz s
      some (s, true)
    else some (s, false)
  else do
    let s ← setSize sz s
    some (s, true)

/-- cstr_prv.c:102-106 `cstr_assign_n`; the flag is false when it returns NULL. -/
def assignN (ok : Bool) (src : Src) (len : Nat) (s : Str) : Option (Str × Bool) := do
  let (s, moved) ← reserve ok len s
  match data s with
  | none => some (s, false)
  | some _ => do
    let s ← setSize len s
    let d ← data s
    let d ← memmoveSrc d moved 0 src len
    some (setBuf d s, true)

/-- cstr_prv.c:110-115: make room for `len` more bytes, and adjust a source inside the string. -/
def makeRoom (ok : Bool) (src : Src) (len n cap : Nat) (s : Str) : Option (Str × Bool × Src) :=
  if n + len > cap then do
    let (s, moved) ← reserve ok (n * 3 / 2 + len) s
    match src with
    | .ext m => some (s, moved, .ext m)
    | .own off => if off ≤ n then some (s, false, .own off) else some (s, moved, .own off)
  else some (s, false, src)

/-- cstr_prv.c:108-119 `cstr_append_n`; the flag is false when it returns NULL. -/
def appendN (ok : Bool) (src : Src) (len : Nat) (s : Str) : Option (Str × Bool) := do
  let (_, n, cap) ← getbuf s
  let (s, stale, src) ← makeRoom ok src len n cap s
  match data s with
  | none => some (s, false)
  | some d => do
    let d ← memcpySrc d stale n src len
    let s ← setSize (n + len) (setBuf d s)
    some (s, true)

/-- cstr_prv.c:43-46: the growing part of `_cstr_internal_move`. -/
def moveRoom (pos1 pos2 n cap : Nat) (s : Str) : Option (Str × Bool) :=
  if n + pos2 - pos1 > cap then reserve true (n * 3 / 2 + pos2 - pos1) s else some (s, false)

/-- cstr_prv.c:39-49 `_cstr_internal_move` (simplified: `pos1` beyond the size, where the byte count
of the `memmove` is negative, is undefined); the flag tells whether the buffer moved. -/
def internalMove (pos1 pos2 : Nat) (s : Str) : Option (Str × Bool) := do
  let (_, n, cap) ← getbuf s
  if pos1 ≠ pos2 then do
    guard (pos1 ≤ n)
    let (s, moved) ← moveRoom pos1 pos2 n cap s
    let d ← data s
    let d ← memmove d pos2 pos1 (n - pos1)
    let s ← setSize (n + pos2 - pos1) (setBuf d s)
    some (s, moved)
  else some (s, false)

/-- cstr_prv.h:405-408 `cstr_replace_at_sv` (`cstr_replace_at`, 409-410). -/
def replaceAt (pos len : Nat) (src : Src) (n : Nat) (s : Str) : Option Str := do
  let (s, moved) ← internalMove (pos + len) (pos + n) s
  let d ← data s
  let d ← memcpySrc d moved pos src n
  some (setBuf d s)

/-- cstr_prv.h:418-422 `cstr_insert_sv`, `cstr_insert`. -/
def insert (pos : Nat) (src : Src) (n : Nat) (s : Str) : Option Str := replaceAt pos 0 src n s

/-- cstr_prv.c:136-141 `cstr_erase` (simplified: a position beyond the size, where the clamped
length is negative, is undefined). -/
def erase (pos len : Nat) (s : Str) : Option Str := do
  let (d, n, _) ← getbuf s
  guard (pos ≤ n)
  let len := if len > n - pos then n - pos else len
  let d ← memmove d pos (pos + len) (n - (pos + len))
  setSize (n - len) (setBuf d s)

/-- cstr_prv.c:147-149: a shrinking `realloc` (it succeeds); `lon.data` of a short string is not a
pointer to a block. -/
def shrinkLong (n : Nat) : Str → Option Str
  | .long d m _ => some (.long (realloc d (n + 1)) m n)
  | _ => none

/-- cstr_prv.c:143-155 `cstr_shrink_to_fit`. -/
def shrink (s : Str) : Option Str := do
  let (d, n, cap) ← getbuf s
  if n = cap then some s
  else if n > sCap then shrinkLong n s
  else if cap > sCap then do
    -- `d` is the heap block; the object holds pointer, size and capacity, all overwritten or dead
    let cs ← get d 0 (n + 1)
    let o ← put (List.replicate 24 none) 0 cs
    setSize n (.short o)
  else some s

/-- cstr_prv.c:165-171 `cstr_append_uninit`, after which the caller writes `bs` to the returned
place. -/
def appendUninit (bs : List Byte) (s : Str) : Option Str := do
  let (_, n, cap) ← getbuf s
  let (s, _) ← (if n + bs.length > cap then reserve true (n * 3 / 2 + bs.length) s else some (s, false))
  let s ← setSize (n + bs.length) s
  let d ← data s
  let d ← put d n (bs.map some)
  some (setBuf d s)

/-- cstr_prv.c:182-186: more room in `cstr_getdelim`. -/
def delimRoom (pos cap : Nat) (s : Str) : Option (Str × Nat) :=
  if pos = cap then do
    let s ← setSize pos s
    let (s, _) ← reserve true (cap * 3 / 2 + 16) s
    some (s, cap * 3 / 2 + 16)
  else some (s, cap)

/-- cstr_prv.c:179-191, the loop of `cstr_getdelim`; `file` is what `fgetc` has yet to return (end
of file afterwards). Result: the string and the rest of the file. -/
def delimLoop (delim : Byte) : List Byte → Nat → Nat → Str → Option (Str × List Byte)
  | [], pos, _, s => do
    let s ← setSize pos s
    some (s, [])
  | c :: file, pos, cap, s =>
    if c = delim then do
      let s ← setSize pos s
      some (s, file)
    else do
      let (s, cap) ← delimRoom pos cap s
      let d ← data s
      let d ← put d pos [some c]
      delimLoop delim file (pos + 1) cap (setBuf d s)

/-- cstr_prv.c:173-192 `cstr_getdelim` (`cstr_getline`, cstr_prv.h:427-428). -/
def getdelim (delim : Byte) (file : List Byte) (s : Str) : Option (Bool × Str × List Byte) :=
  match file with
  | [] => some (false, s, [])
  | _ => do
    let (_, _, cap) ← getbuf s
    let (s, rest) ← delimLoop delim file 0 cap s
    some (true, s, rest)

/-- cstr_prv.c:194-202 `cstr_vfmt`; `out` is the formatted text, written with its terminator. -/
def vfmt (start : Nat) (out : List Byte) (s : Str) : Option Str := do
  let (s, _) ← reserve true (start + out.length) s
  let d ← data s
  let d ← put d start ((out ++ [0#8]).map some)
  setSize (start + out.length) (setBuf d s)

/-- cstr_prv.c:222-229 `cstr_printf`. -/
def printf (out : List Byte) (s : Str) : Option Str := vfmt 0 out s

/-- cstr_prv.c:213-219 `cstr_append_fmt`. -/
def appendFmt (out : List Byte) (s : Str) : Option Str := do
  let n ← size s
  vfmt n out s

/-- cstr_prv.h:356-357 `cstr_push`: append one UTF-8 character given by a pointer. -/
def push (m : List Byte) (s : Str) : Option Str := do
  let k ← chrSize m
  let (s, _) ← appendN true (.ext m) k s
  some s

/-- cstr_prv.h:361-362: the loop of `cstr_pop` over the reversed bytes before the end: bytes
removed. Going before the first byte is undefined. -/
def popLoop : List Byte → Option Nat
  | [] => none
  | b :: r => if lead b then some 1 else (popLoop r).map (· + 1)

/-- cstr_prv.h:359-364 `cstr_pop`. -/
def pop (s : Str) : Option Str := do
  let m ← mem s
  let n ← size s
  let k ← popLoop (m.take n).reverse
  setSize (n - k) s

/-- cstr_prv.c:238-243 `cstr_u8_erase`. -/
def u8Erase (pos len : Nat) (s : Str) : Option Str := do
  let m ← mem s
  let (d, n, _) ← getbuf s
  let (o, k) ← Utf8.subview m pos len
  guard (o + k ≤ n)
  let d ← memmove d o (o + k) (n - k - o)
  setSize (n - k) (setBuf d s)

/-- cstr_prv.h:412-415 `cstr_u8_replace`; `repl` a C string. -/
def u8Replace (pos len : Nat) (repl : List Byte) (s : Str) : Option Str := do
  let m ← mem s
  let (o, k) ← Utf8.subview m pos len
  let n ← strlen repl
  replaceAt o k (.ext repl) n s

/-- cstr_prv.h:424-425 `cstr_u8_insert`. -/
def u8Insert (pos : Nat) (str : List Byte) (s : Str) : Option Str := do
  let m ← mem s
  let o ← toIndex m pos
  let n ← strlen str
  insert o (.ext str) n s

/-- cstr_prv.c:125-131, the loop of `cstr_from_replace`: `inp` is the input from `from` on, `count`
replacements remain (`none`: fuel exhausted). -/
def replaceLoop (search : List Byte) (sn : Nat) (repl : List Byte) (rn : Nat) :
    Nat → Nat → List Byte → Nat → Str → Option (Str × List Byte × Nat)
  | 0, _, _, _, _ => none
  | f + 1, count, inp, n, out =>
    if count = 0 then some (out, inp, n)
    else do
      let r ← strnstrn inp n search sn
      match r with
      | none => some (out, inp, n)
      | some pos => do
        let (out, _) ← appendN true (.ext inp) pos out
        let (out, _) ← appendN true (.ext repl) rn out
        replaceLoop search sn repl rn f (count - 1) (inp.drop (pos + sn)) (n - (pos + sn)) out

/-- cstr_prv.c:125-131: skipped for an empty search string. -/
def replaceAll (inp : List Byte) (n : Nat) (search : List Byte) (sn : Nat) (repl : List Byte) (rn count : Nat) :
    Option (Str × List Byte × Nat) :=
  if sn ≠ 0 then replaceLoop search sn repl rn (n + 1) count inp n empty else some (empty, inp, n)

/-- cstr_prv.c:121-134 `cstr_from_replace` (`count ≥ 0`; 0 means no limit). Each round consumes at
least one byte of the input, so the fuel suffices. -/
def fromReplace (inp : List Byte) (n : Nat) (search : List Byte) (sn : Nat) (repl : List Byte) (rn count : Nat) :
    Option Str := do
  let count := if count = 0 then 2 ^ 31 - 1 else count
  let (out, rest, n) ← replaceAll inp n search sn repl rn count
  let (out, _) ← appendN true (.ext rest) n out
  some out

/-- cstr_prv.h:395-396 `cstr_replace_sv`: the new string replaces the old one (which is freed). -/
def replace (search : List Byte) (sn : Nat) (repl : List Byte) (rn count : Nat) (s : Str) : Option Str := do
  let m ← mem s
  let n ← size s
  fromReplace m n search sn repl rn count

/-- cstr_prv.h:385-388 `cstr_join_n`, 389-392 `cstr_join_sn`: the loop; the items are C strings. -/
def joinLoop (sep : List Byte) : List Byte → List (List Byte) → Str → Option Str
  | _, [], s => some s
  | cur, x :: xs, s => do
    let n ← strlen cur
    let (s, _) ← appendN true (.ext cur) n s
    let k ← strlen x
    let (s, _) ← appendN true (.ext x) k s
    joinLoop sep sep xs s

/-- cstr_prv.h:385-388 `cstr_join_n`. -/
def join (sep : List Byte) (arr : List (List Byte)) (s : Str) : Option Str := do
  let n ← size s
  joinLoop sep (if n = 0 then [0#8] else sep) arr s

/-- cstr_prv.c:248-251 `toLower`, `toUpper`. -/
def ascLower (c : Nat) : Nat := if 65 ≤ c ∧ c ≤ 90 then c + 32 else c
/-- cstr_prv.c:250-251 `toUpper`. -/
def ascUpper (c : Nat) : Nat := if 97 ≤ c ∧ c ≤ 122 then c - 32 else c

/-- The three conversions of `fn_tocase`, cstr_prv.c:252-258. -/
inductive Case where
  | fold | lower | upper

/-- cstr_prv.c:252-258 `fn_tocase[k].conv_asc`. -/
def Case.asc : Case → Nat → Nat
  | .fold => ascLower
  | .lower => ascLower
  | .upper => ascUpper

/-- cstr_prv.c:252-258 `fn_tocase[k].conv_utf`. -/
def Case.utf : Case → Nat → Nat
  | .fold => casefold
  | .lower => tolower
  | .upper => toupper

/-- cstr_prv.c:270-275: the bytes written for a decoded code point. -/
def Case.bytes (k : Case) (c : Nat) : List Byte :=
  if c < 0x80 then [BitVec.ofNat 8 (k.asc c)] else encode (k.utf c)

/-- cstr_prv.c:267-276, the loop of `cstr_tocase_sv`: `m` are the remaining bytes of the view. -/
def tocaseLoop (k : Case) : Nat → List Byte → List Cell → Nat → Option (List Cell × Nat)
  | _, [], d, sz => some (d, sz)
  | 0, _ :: _, _, _ => none
  | f + 1, b :: m, d, sz => do
    let (c, n) ← decodeCp (b :: m) (m.length + 1)
    let d ← put d sz ((k.bytes c).map some)
    tocaseLoop k f ((b :: m).drop n) d (sz + (k.bytes c).length)

/-- cstr_prv.c:260-280 `cstr_tocase_sv` (`cstr_casefold_sv`, `cstr_tolower_sv`, `cstr_toupper_sv`,
`cstr_lowercase`, `cstr_uppercase`) on a view of exactly these bytes. -/
def tocase (k : Case) (sv : List Byte) : Option Str := do
  let (s, _) ← reserve true (sv.length * 3 / 2) empty
  let d ← data s
  let (d, sz) ← tocaseLoop k sv.length sv d 0
  let s ← setSize sz (setBuf d s)
  shrink s

/-- cstr_prv.c:28-31 `cstr_hash`. -/
def hash (s : Str) : Option (BitVec 64) := do
  let m ← mem s
  let n ← size s
  basehash m n

end Verif.Cstr
