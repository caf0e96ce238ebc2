import Verif.Base
import Verif.Common.Model
/-
Model of `deque` (include/stc/deque.h) and `queue` (include/stc/queue.h), which share
include/stc/priv/queue_prv.h: a ring buffer whose capacity is a power of two.

`none` = undefined behaviour or failing `c_assert`; `ok` is the allocation outcome.
`isize` is unbounded, except that sizes are required to stay below 2^62 where the code
computes the next power of two (`fits`).
-/
namespace Verif.Deque
open Common (land nextPow2)
variable {α : Type _}

/-- types.h `_c_deque_types`: `{ value* cbuf; isize start, end, capmask; }` with the ghost log
of destroyed elements. `cbuf = none` is NULL. -/
structure Deque (α : Type _) where
  cbuf : Option (Buf α)
  start : Nat
  fin : Nat
  capmask : Nat
  dropped : List α

/-- queue_prv.h:41-42 `_init`. -/
def init : Deque α := ⟨none, 0, 0, 0, []⟩

/-- queue_prv.h:38 `_cbuf_toidx`. -/
def toidx (d : Deque α) (pos : Nat) : Nat := land ((pos : Int) - d.start) d.capmask

/-- queue_prv.h:39 `_cbuf_topos`. -/
def topos (d : Deque α) (idx : Nat) : Nat := land ((d.start : Int) + idx) d.capmask

/-- queue_prv.h:72-73 `_size`. -/
def size (d : Deque α) : Nat := toidx d d.fin

/-- queue_prv.h:76-77 `_is_empty`. -/
def isEmpty (d : Deque α) : Bool := d.start == d.fin

/-- `cap + 1` must be a representable power-of-two request. -/
def fits (cap : Nat) : Prop := cap + 1 ≤ 2 ^ 62

instance (cap : Nat) : Decidable (fits cap) := inferInstanceAs (Decidable (_ ≤ _))

/-- queue_prv.h:185-206 `_reserve`. -/
def reserve (ok : Bool) (d : Deque α) (cap : Nat) : Option (Deque α × Bool) := do
  guard (fits cap)
  let oldpow2 := d.capmask + 1
  let newpow2 := nextPow2 (cap + 1)
  if newpow2 ≤ oldpow2 then some (d, d.cbuf.isSome)
  else if ok = false then some (d, false)
  else
    let b := (d.cbuf.getD []).realloc newpow2
    let head := oldpow2 - d.start
    if d.start ≤ d.fin then
      some ({ d with cbuf := some b, capmask := newpow2 - 1 }, true)
    else if head < d.fin then do
      let b ← b.copyIn (newpow2 - head) d.start head
      some ({ d with cbuf := some b, start := newpow2 - head, capmask := newpow2 - 1 }, true)
    else do
      let b ← b.copyIn oldpow2 0 d.fin
      some ({ d with cbuf := some b, fin := d.fin + oldpow2, capmask := newpow2 - 1 }, true)

/-- queue_prv.h:208-220 `_push` (deque.h:60-61 `_push_back`, queue_prv.h:53-54 `_emplace`). -/
def push (ok : Bool) (d : Deque α) (x : α) : Option (Deque α × Bool) :=
  let store (d : Deque α) (e : Nat) : Option (Deque α × Bool) := do
    let b ← d.cbuf
    let b ← b.wr d.fin x
    some ({ d with cbuf := some b, fin := e }, true)
  let e := land ((d.fin : Int) + 1) d.capmask
  if e = d.start then do
    let (d, r) ← reserve ok d (d.capmask + 3)
    if r then store d (land ((d.fin : Int) + 1) d.capmask) else some (d, false)
  else store d e

/-- deque.h:131-143 `_push_front`. -/
def pushFront (ok : Bool) (d : Deque α) (x : α) : Option (Deque α × Bool) :=
  let store (d : Deque α) (s : Nat) : Option (Deque α × Bool) := do
    let b ← d.cbuf
    let b ← b.wr s x
    some ({ d with cbuf := some b, start := s }, true)
  let s := land ((d.start : Int) - 1) d.capmask
  if s = d.fin then do
    let (d, r) ← reserve ok d (d.capmask + 3)
    if r then store d (land ((d.start : Int) - 1) d.capmask) else some (d, false)
  else store d s

/-- queue_prv.h:102-106 `_pop` (deque `_pop_front`). -/
def pop (d : Deque α) : Option (Deque α) := do
  guard (isEmpty d = false)
  let b ← d.cbuf
  let (x, b) ← b.kill d.start
  let s := land ((d.start : Int) + 1) d.capmask
  some { d with cbuf := some b, start := s, dropped := d.dropped ++ [x] }

/-- queue_prv.h:108-113 `_pull` (deque `_pull_front`). -/
def pull (d : Deque α) : Option (Deque α × α) := do
  guard (isEmpty d = false)
  let b ← d.cbuf
  let (x, b) ← b.kill d.start
  some ({ d with cbuf := some b, start := land ((d.start : Int) + 1) d.capmask }, x)

/-- deque.h:63-68 `_pop_back`. -/
def popBack (d : Deque α) : Option (Deque α) := do
  guard (isEmpty d = false)
  let e := land ((d.fin : Int) - 1) d.capmask
  let b ← d.cbuf
  let (x, b) ← b.kill e
  some { d with cbuf := some b, fin := e, dropped := d.dropped ++ [x] }

/-- deque.h:70-74 `_pull_back`. -/
def pullBack (d : Deque α) : Option (Deque α × α) := do
  guard (isEmpty d = false)
  let e := land ((d.fin : Int) - 1) d.capmask
  let b ← d.cbuf
  let (x, b) ← b.kill e
  some ({ d with cbuf := some b, fin := e }, x)

/-- deque.h:49-57 `_at`, `_at_mut`: the checked position. -/
def atPos (d : Deque α) (idx : Nat) : Option Nat := do
  guard (idx < size d)
  some (topos d idx)

/-- deque.h:49-53 `_at`, read. -/
def at' (d : Deque α) (idx : Nat) : Option α := do
  let p ← atPos d idx
  let b ← d.cbuf
  b.rd p

/-- queue_prv.h:81-84 `_front`, read by the caller. -/
def front (d : Deque α) : Option α := do
  let b ← d.cbuf
  b.rd d.start

/-- queue_prv.h:86-89 `_back`, read by the caller. -/
def back (d : Deque α) : Option α := do
  let b ← d.cbuf
  b.rd (land ((d.fin : Int) - 1) d.capmask)

/-- Store through `_at_mut` (deque.h:55-57) without destroying the previous element. -/
def setAt (d : Deque α) (idx : Nat) (x : α) : Option (Deque α) := do
  let p ← atPos d idx
  let b ← d.cbuf
  let b ← b.wr p x
  some { d with cbuf := some b }

/-- Destroy the element at index `idx`: `i_keydrop(_at_mut(self, i))`. -/
def dropAt (d : Deque α) (idx : Nat) : Option (Deque α) := do
  let p ← atPos d idx
  let b ← d.cbuf
  let (x, b) ← b.kill p
  some { d with cbuf := some b, dropped := d.dropped ++ [x] }

/-- `*_at_mut(self, i) = *_at(self, j)`: the element is moved, slot `j` is dead unless `i = j`. -/
def moveAt (d : Deque α) (i j : Nat) : Option (Deque α) := do
  let p ← atPos d i
  let q ← atPos d j
  let b ← d.cbuf
  let (x, b) ← b.kill q
  let b ← b.wr p x
  some { d with cbuf := some b }

/-- deque.h:149-150, destroying indices `idx + n - 1` down to `idx`. -/
def dropDown (d : Deque α) (idx : Nat) : Nat → Option (Deque α)
  | 0 => some d
  | n + 1 => do
    let d ← dropAt d (idx + n)
    dropDown d idx n

/-- deque.h:151-152, moving `k` elements from index `i + n` on down to `i`. -/
def shiftDown (d : Deque α) (i n : Nat) : Nat → Option (Deque α)
  | 0 => some d
  | k + 1 => do
    let d ← moveAt d i (i + n)
    shiftDown d (i + 1) n k

/-- deque.h:169-170, moving the `k` elements from index `idx` on up by `n`, last one first. -/
def shiftUp (d : Deque α) (idx n : Nat) : Nat → Option (Deque α)
  | 0 => some d
  | k + 1 => do
    let d ← moveAt d (idx + k + n) (idx + k)
    shiftUp d idx n k

/-- deque.h:145-154 `_erase_n`. -/
def eraseN (d : Deque α) (idx n : Nat) : Option (Deque α) := do
  let len := size d
  guard (idx + n ≤ len)
  let d ← dropDown d idx n
  let d ← shiftDown d idx n (len - (idx + n))
  some { d with fin := land ((d.fin : Int) - n) d.capmask }

/-- Iterator `{ref, pos}` of types.h (`_s` is the container): `ref` is an offset into `cbuf`,
`none` for NULL. -/
structure Iter where
  ref : Option Nat
  pos : Nat
deriving DecidableEq

/-- deque.h:163-171, the part of `_insert_uninit` after the reallocation: open a gap of `n`
slots at index `idx` of a deque of size `len`. -/
def openGap (d : Deque α) (idx n len : Nat) : Option (Deque α × Iter) := do
  let pos := topos d idx
  let d := { d with fin := land ((d.fin : Int) + n) d.capmask }
  let d ← if pos < d.fin then do
      let b ← d.cbuf
      let b ← b.move (pos + n) pos (len - idx)
      some { d with cbuf := some b }
    else shiftUp d idx n (len - idx)
  some (d, ⟨some pos, pos⟩)

/-- deque.h:156-172 `_insert_uninit`. `idx ≤ size` is a precondition (the byte count
`len - idx` passed to memmove must not be negative). -/
def insertUninit (ok : Bool) (d : Deque α) (idx n : Nat) : Option (Deque α × Iter) := do
  let len := size d
  guard (idx ≤ len)
  if len + n ≥ d.capmask then do
    let (d, r) ← reserve ok d (len + n)
    if r then openGap d idx n len else some (d, ⟨none, 0⟩)
  else openGap d idx n len

/-- The store loop of deque.h:177-178 (`_insert_n`) and 186-187 (`_emplace_n`). -/
def storeAll (d : Deque α) (i : Nat) : List α → Option (Deque α)
  | [] => some d
  | x :: xs => do
    let d ← setAt d i x
    storeAll d (i + 1) xs

/-- deque.h:174-180 `_insert_n` (and 184-189 `_emplace_n`): the result of `_insert_uninit` is
not checked before storing. -/
def insertN (ok : Bool) (d : Deque α) (idx : Nat) (arr : List α) : Option (Deque α × Iter) := do
  let (d, it) ← insertUninit ok d idx arr.length
  let d ← storeAll d idx arr
  some (d, it)

/-! ### Iteration -/

/-- queue_prv.h:115-119 `_begin`. -/
def begin (d : Deque α) : Iter := ⟨if isEmpty d then none else some d.start, d.start⟩

/-- queue_prv.h:121-126 `_rbegin`. -/
def rbegin (d : Deque α) : Iter :=
  let pos := land ((d.fin : Int) - 1) d.capmask
  ⟨if isEmpty d then none else some pos, pos⟩

/-- queue_prv.h:128-132 `_end`, `_rend`: `{0}`. -/
def endIter : Iter := ⟨none, 0⟩

/-- queue_prv.h:134-138 `_next`; calling it on a NULL iterator is a misuse. -/
def next (d : Deque α) (it : Iter) : Option Iter := do
  let r ← it.ref
  let (r, pos) := if it.pos ≠ d.capmask then (r + 1, it.pos + 1) else (r - it.pos, 0)
  some ⟨if pos = d.fin then none else some r, pos⟩

/-- queue_prv.h:140-144 `_rnext`. -/
def rnext (d : Deque α) (it : Iter) : Option Iter := do
  let r ← it.ref
  some (if it.pos = d.start then ⟨none, it.pos⟩
    else if it.pos ≠ 0 then ⟨some (r - 1), it.pos - 1⟩
    else ⟨some (r + d.capmask), d.capmask⟩)

/-- queue_prv.h:155-162 `_advance` for a non-negative step. `it.ref + (newpos - pos)`. -/
def advance (d : Deque α) (it : Iter) (n : Nat) : Option Iter := do
  let r ← it.ref
  let len := size d
  let idx := toidx d it.pos
  let pos := land ((it.pos : Int) + n) d.capmask
  some ⟨if idx + n < len then some ((r : Int) + pos - it.pos).toNat else none, pos⟩

/-- queue_prv.h:146-147 `_index`. -/
def index (d : Deque α) (it : Iter) : Nat := toidx d it.pos

/-- `c_each` (common.h:164-165) with a body reading `*it.ref`. -/
def eachFrom (d : Deque α) : Nat → Iter → Option (List α)
  | 0, it => if it.ref = none then some [] else none
  | fuel + 1, it =>
    match it.ref with
    | none => some []
    | some r => do
      let b ← d.cbuf
      let x ← b.rd r
      let it ← next d it
      let xs ← eachFrom d fuel it
      some (x :: xs)

/-- The whole loop. -/
def each (d : Deque α) (fuel : Nat) : Option (List α) := eachFrom d fuel (begin d)

/-- `c_each_reverse` (common.h:171-173). -/
def revFrom (d : Deque α) : Nat → Iter → Option (List α)
  | 0, it => if it.ref = none then some [] else none
  | fuel + 1, it =>
    match it.ref with
    | none => some []
    | some r => do
      let b ← d.cbuf
      let x ← b.rd r
      let it ← rnext d it
      let xs ← revFrom d fuel it
      some (x :: xs)

/-- The whole reverse loop. -/
def eachReverse (d : Deque α) (fuel : Nat) : Option (List α) := revFrom d fuel (rbegin d)

/-- The destroying loop of `_clear` (queue_prv.h:166-167). -/
def clearFrom (d : Deque α) : Nat → Iter → Option (Deque α)
  | 0, it => if it.ref = none then some d else none
  | fuel + 1, it =>
    match it.ref with
    | none => some d
    | some r => do
      let b ← d.cbuf
      let (x, b) ← b.kill r
      let d := { d with cbuf := some b, dropped := d.dropped ++ [x] }
      let it ← next d it
      clearFrom d fuel it

/-- queue_prv.h:164-169 `_clear`. The loop has at most `capmask + 1` rounds (one per slot). -/
def clear (d : Deque α) : Option (Deque α) := do
  let d ← clearFrom d (d.capmask + 1) (begin d)
  some { d with start := 0, fin := 0 }

/-- queue_prv.h:171-176 `_drop`: the log of destroyed elements. -/
def drop (d : Deque α) : Option (List α) := do
  let d ← clear d
  some d.dropped

/-- queue_prv.h:178-183 `_with_capacity`. -/
def withCapacity (ok : Bool) (cap : Nat) : Option (Deque α) := do
  let (d, _) ← reserve ok init cap
  some d

/-- The loop `out.cbuf[j++] = *i.ref` (queue_prv.h:230-231, 243-244) over the elements `xs`
delivered by the iteration. -/
def fillFrom (b : Buf α) (j : Nat) : List α → Option (Buf α)
  | [] => some b
  | x :: xs => do
    let b ← b.wr j x
    fillFrom b (j + 1) xs

/-- queue_prv.h:222-235 `_shrink_to_fit`. -/
def shrinkToFit (ok : Bool) (d : Deque α) : Option (Deque α) := do
  let sz := size d
  if sz > d.capmask / 2 then some d
  else do
    let out ← withCapacity ok sz
    match out.cbuf with
    | none => some d
    | some b => do
      let xs ← each d (d.capmask + 1)
      let b ← fillFrom b 0 xs
      some { out with cbuf := some b, fin := sz, dropped := d.dropped }

/-- queue_prv.h:237-250 `_clone` (`i_keyclone` is the identity on values; the clone starts with
an empty log). -/
def clone (ok : Bool) (d : Deque α) : Option (Deque α) := do
  let sz := size d
  let tmp ← withCapacity ok sz
  match tmp.cbuf with
  | none => some ⟨none, 0, sz, tmp.capmask, []⟩
  | some b => do
    let xs ← each d (d.capmask + 1)
    let b ← fillFrom b 0 xs
    some ⟨some b, 0, sz, tmp.capmask, []⟩

/-- queue_prv.h:254-264 `_eq`, the loop. -/
def eqFrom (d e : Deque α) (eq : α → α → Bool) : Nat → Iter → Iter → Option Bool
  | 0, i, _ => if i.ref = none then some true else none
  | fuel + 1, i, j =>
    match i.ref with
    | none => some true
    | some r => do
      let b ← d.cbuf
      let x ← b.rd r
      let c ← e.cbuf
      let q ← j.ref
      let y ← c.rd q
      if eq x y then do
        let i ← next d i
        let j ← next e j
        eqFrom d e eq fuel i j
      else some false

/-- queue_prv.h:254-264 `_eq`. -/
def eq (d e : Deque α) (eq : α → α → Bool) : Option Bool :=
  if size d ≠ size e then some false else eqFrom d e eq (d.capmask + 1) (begin d) (begin e)

/-! ### Calls through iterators -/

/-- deque.h:76-80 `_insert_at`. -/
def insertAt (ok : Bool) (d : Deque α) (it : Iter) (x : α) : Option (Deque α × Iter) :=
  insertN ok d (toidx d it.pos) [x]

/-- deque.h:82-87 `_erase_at`. -/
def eraseAt (d : Deque α) (it : Iter) : Option (Deque α × Iter) := do
  let d ← eraseN d (toidx d it.pos) 1
  some (d, if it.pos = d.fin then { it with ref := none } else it)

/-- deque.h:89-96 `_erase_range`. A negative count `idx2 - idx1` makes both loops of `_erase_n`
run over a bogus range; it is treated as undefined. -/
def eraseRange (d : Deque α) (it1 it2 : Iter) : Option (Deque α × Iter) := do
  let idx1 := toidx d it1.pos
  let idx2 := toidx d it2.pos
  guard (idx1 ≤ idx2)
  let d ← eraseN d idx1 (idx2 - idx1)
  some (d, if it1.pos = d.fin then { it1 with ref := none } else it1)

/-! ### Histories -/

/-- One API call; `ok` is the allocation outcome. -/
inductive Op (α : Type _) where
  | push (ok : Bool) (x : α)
  | pushFront (ok : Bool) (x : α)
  | pop
  | pull
  | popBack
  | pullBack
  | insertN (ok : Bool) (idx : Nat) (arr : List α)
  | eraseN (idx n : Nat)
  | reserve (ok : Bool) (cap : Nat)
  | shrinkToFit (ok : Bool)
  | clear
  | replace (idx : Nat) (x : α)

/-- Reply: success flag and the element handed to the caller. -/
structure Reply (α : Type _) where
  ok : Bool
  out : Option α

/-- Execute one call. -/
def step (d : Deque α) : Op α → Option (Deque α × Reply α)
  | .push ok x => do let (d, r) ← push ok d x; some (d, ⟨r, none⟩)
  | .pushFront ok x => do let (d, r) ← pushFront ok d x; some (d, ⟨r, none⟩)
  | .pop => do let d ← pop d; some (d, ⟨true, none⟩)
  | .pull => do let (d, x) ← pull d; some (d, ⟨true, some x⟩)
  | .popBack => do let d ← popBack d; some (d, ⟨true, none⟩)
  | .pullBack => do let (d, x) ← pullBack d; some (d, ⟨true, some x⟩)
  | .insertN ok idx arr => do let (d, it) ← insertN ok d idx arr; some (d, ⟨it.ref.isSome, none⟩)
  | .eraseN idx n => do let d ← eraseN d idx n; some (d, ⟨true, none⟩)
  | .reserve ok cap => do let (d, r) ← reserve ok d cap; some (d, ⟨r, none⟩)
  | .shrinkToFit ok => do let d ← shrinkToFit ok d; some (d, ⟨true, none⟩)
  | .clear => do let d ← clear d; some (d, ⟨true, none⟩)
  -- the caller's `old = *at(i); *at_mut(i) = x;`
  | .replace idx x => do let y ← at' d idx; let d ← setAt d idx x; some (d, ⟨true, some y⟩)

end Verif.Deque
