import Verif.Vec.Model
import Verif.Deque.Model
import Verif.Smap.Model
import Verif.Hmap.Model
import Verif.Clist.Model
import Verif.Common.Model
/-
Model of the generic algorithms: integer ranges (`common.h` `c_range`, `sys/crange.h`), searching,
appending, reversing and erasing (`sys/utility.h`), and filter pipelines (`sys/filter.h`).

The macros are generic in the container: they only use its iterators. A `Walker` is what they use:
the pointer `ref` of an iterator, the value behind it, and `next`. Predicates and mapped expressions
are pure functions of the value. A loop that has not ended after the given number of rounds, an
access through a bad pointer and signed overflow are `none`.
-/
namespace Verif.Algo

/-! ### integer ranges -/

/-- A signed result of `w` bits; overflow is undefined. -/
def sig (w : Nat) (x : Int) : Option Int :=
  if -((2 : Int) ^ (w - 1)) ≤ x ∧ x < 2 ^ (w - 1) then some x else none

/-- `crange` (crange.h 52; 32 bits: 90), without the current value. -/
structure Range where
  start : Int
  fin : Int
  step : Int
deriving DecidableEq

/-- `crange_iter` (crange.h 53; 91): `ref` is `some` of the value of the range, or NULL. -/
structure RIter where
  ref : Option Int
  fin : Int
  step : Int
deriving DecidableEq

/-- `crange_make_3` (crange.h 55-56; 93-94). -/
def rangeMake (w : Nat) (start stop step : Int) : Option Range := do
  let e ← sig w (stop - if step > 0 then 1 else 0)
  some ⟨start, e, step⟩

/-- `crange_begin` (crange.h 62-66; 100-104). -/
def rangeBegin (r : Range) : RIter := ⟨some r.start, r.fin, r.step⟩

/-- `crange_next` (crange.h 68-71; 106-109). -/
def rangeNext (w : Nat) (it : RIter) : Option RIter := do
  let v ← it.ref
  let v ← sig w (v + it.step)
  if decide (it.step > 0) = decide (v > it.fin) then some { it with ref := none }
  else some { it with ref := some v }

/-- `crange_advance` (crange.h 73-77; 111-115). -/
def rangeAdvance (w : Nat) (it : RIter) (n : Nat) : Option RIter := do
  let v ← it.ref
  let d ← sig w (it.step * n)
  let v ← sig w (v + d)
  if decide (it.step > 0) = decide (v > it.fin) then some { it with ref := none }
  else some { it with ref := some v }

/-- `c_range_t_4` (common.h 204-205): `for (T i = start, end = stop; i < end; ++i)`, collecting `i`. -/
def range4 (w : Nat) (stop : Int) : Nat → Int → Option (List Int)
  | 0, _ => none
  | f + 1, i =>
    if i < stop then do
      let j ← sig w (i + 1)
      let xs ← range4 w stop f j
      some (i :: xs)
    else some []

/-- The loop of `c_range_t_5` (common.h 206-208), with `end` already computed. -/
def range5Loop (w : Nat) (fin step : Int) : Nat → Int → Option (List Int)
  | 0, _ => none
  | f + 1, i =>
    if decide (step > 0) = decide (i ≤ fin) then do
      let j ← sig w (i + step)
      let xs ← range5Loop w fin step f j
      some (i :: xs)
    else some []

/-- `c_range_t_5` (common.h 206-208). -/
def range5 (w : Nat) (f : Nat) (start stop step : Int) : Option (List Int) := do
  let fin ← sig w (stop - if step > 0 then 1 else 0)
  range5Loop w fin step f start

/-! ### iterators -/

/-- What the macros use of an iterator type: the pointer `ref` (`none` is NULL), `*ref` and `next`. -/
structure Walker (ι α : Type) where
  ref : ι → Option Nat
  load : ι → Option α
  next : ι → Option ι

variable {ι α : Type}

/-- `c_each` (common.h 164-165), collecting the values. -/
def eachLoop (W : Walker ι α) : Nat → ι → Option (List α)
  | 0, _ => none
  | f + 1, it =>
    match W.ref it with
    | none => some []
    | some _ => do
      let x ← W.load it
      let it ← W.next it
      let xs ← eachLoop W f it
      some (x :: xs)

/-- `c_each_n` (common.h 169-171) with `n` elements at most. -/
def eachNLoop (W : Walker ι α) (size : Int) : Nat → Int → ι → Option (List α)
  | 0, _, _ => none
  | f + 1, index, it =>
    match W.ref it with
    | none => some []
    | some _ =>
      if index < size then do
        let x ← W.load it
        let it ← W.next it
        let xs ← eachNLoop W size f (index + 1) it
        some (x :: xs)
      else some []

/-- `_c_find` (utility.h 46-52): the iterator found, or `none` for `ref = NULL`. `endref` is NULL for
`c_find_if_4`. -/
def findLoop (W : Walker ι α) (endref : Option Nat) (p : α → Bool) : Nat → ι → Option (Option ι)
  | 0, _ => none
  | f + 1, it =>
    if W.ref it = endref then some none
    else do
      let x ← W.load it
      if p x then some (some it)
      else do
        let it ← W.next it
        findLoop W endref p f it

/-- `c_all_of` (utility.h 136-140). -/
def allOf (W : Walker ι α) (p : α → Bool) (f : Nat) (start : ι) : Option Bool := do
  let r ← findLoop W none (fun x => !p x) f start
  some r.isNone

/-- `c_any_of` (utility.h 142-146). -/
def anyOf (W : Walker ι α) (p : α → Bool) (f : Nat) (start : ι) : Option Bool := do
  let r ← findLoop W none p f start
  some r.isSome

/-- `c_none_of` (utility.h 148-152). -/
def noneOf (W : Walker ι α) (p : α → Bool) (f : Nat) (start : ι) : Option Bool := do
  let r ← findLoop W none p f start
  some r.isNone

/-- `_c_append_if` (utility.h 124-130), appending clones to something with a `push`. -/
def appendIf {σ β : Type} (W : Walker ι α) (p : α → Bool) (clone : α → β) (push : σ → β → Option σ) :
    Nat → ι → σ → Option σ
  | 0, _, _ => none
  | f + 1, it, out =>
    match W.ref it with
    | none => some out
    | some _ => do
      let x ← W.load it
      let it' ← W.next it
      if p x then do
        let out ← push out (clone x)
        appendIf W p clone push f it' out
      else appendIf W p clone push f it' out

/-! ### filter pipelines -/

/-- `struct _flt_base` (filter.h 167-171) with `c_NFILTERS` = 20 (filter.h 163-165). -/
structure Base where
  snTop : Nat
  sbTop : Nat
  done : Bool
  sb : List Bool
  sn : List Nat
deriving DecidableEq

/-- `struct _flt_base _base = {0}` (filter.h 74). -/
def Base.init : Base := ⟨0, 0, false, List.replicate 20 false, List.replicate 20 0⟩

/-- The expressions joined by `&&` in the predicate of `c_filter`. -/
inductive Stage (α : Type) where
  /-- any test of `*value` -/
  | filt (p : α → Bool)
  /-- `c_flt_map(f(*value))` (filter.h 58) -/
  | map (f : α → α)
  /-- `c_flt_skip(n)` (filter.h 53) -/
  | skip (n : Nat)
  /-- `c_flt_take(n)` (filter.h 52) -/
  | take (n : Nat)
  /-- `c_flt_skipwhile(p)` (filter.h 55) -/
  | skipWhile (p : α → Bool)
  /-- `c_flt_takewhile(p)` (filter.h 54) -/
  | takeWhile (p : α → Bool)
  /-- a test of `c_flt_counter()` (filter.h 56) and `*value` -/
  | counted (p : Nat → α → Bool)
  /-- `cco_flt_take(n)`, for iterators that are coroutines (coroutine.h 383-384) -/
  | coTake (n : Nat)
  /-- `cco_flt_takewhile(p)`, for iterators that are coroutines (coroutine.h 386-387) -/
  | coTakeWhile (p : α → Bool)

/-- `++_base.sn[++_base.sn_top]`: the new count (32 bits). -/
def bump (b : Base) : Option (Nat × Base) := do
  let t := b.snTop + 1
  let k ← b.sn[t]?
  let k := (k + 1) % 2 ^ 32
  some (k, { b with snTop := t, sn := b.sn.set t k })

/-- `_base.sb[_base.sb_top++] |= q`: the new flag. -/
def mark (b : Base) (q : Bool) : Option (Bool × Base) := do
  let x ← b.sb[b.sbTop]?
  some (x || q, { b with sbTop := b.sbTop + 1, sb := b.sb.set b.sbTop (x || q) })

/-- One expression of the predicate; `none` in place of the value if it is false. What the forms for coroutines do to
the coroutine is in `Verif.Coro.Gen`. -/
def evalStage (s : Stage α) (b : Base) (x : α) : Option (Option α × Base) :=
  match s with
  | .filt p => some (if p x then some x else none, b)
  | .map f => some (some (f x), b)
  | .skip n => do
    let (k, b) ← bump b
    some (if k > n then some x else none, b)
  | .take n => do
    -- `_flt_take` (filter.h 173-177)
    let (k, b) ← bump b
    let b := { b with done := b.done || decide (k ≥ n) }
    some (if n > 0 then some x else none, b)
  | .skipWhile p => do
    let (q, b) ← mark b (!p x)
    some (if q then some x else none, b)
  | .takeWhile p => do
    -- `_flt_takewhile` (filter.h 179-183)
    let (skip, b) ← mark b (!p x)
    let b := { b with done := b.done || skip }
    some (if skip then none else some x, b)
  | .counted p => do
    let (k, b) ← bump b
    some (if p k x then some x else none, b)
  | .coTake n => do
    -- `(c_flt_take(n), _base.done ? _it.cco.state = CCO_STATE_FINALLY : 1)`: not zero in any case
    let (k, b) ← bump b
    some (some x, { b with done := b.done || decide (k ≥ n) })
  | .coTakeWhile p => do
    -- `(c_flt_takewhile(pred), _base.done ? _it.cco.state = CCO_STATE_FINALLY : 1)`
    let (skip, b) ← mark b (!p x)
    some (some x, { b with done := b.done || skip })

/-- The predicate: the expressions joined by `&&`, which stops at the first false one. -/
def evalAll : List (Stage α) → Base → α → Option (Option α × Base)
  | [], b, x => some (some x, b)
  | s :: ss, b, x => do
    let (y, b) ← evalStage s b x
    match y with
    | none => some (none, b)
    | some y => evalAll ss b y

/-- `_c_filter` (filter.h 73-80), collecting the values that reach the end of the predicate. -/
def filterLoop (W : Walker ι α) (ss : List (Stage α)) : Nat → ι → Base → Option (List α)
  | 0, _, _ => none
  | f + 1, it, b =>
    match b.done, W.ref it with
    | true, _ => some []
    | false, none => some []
    | false, some _ => do
      let x ← W.load it
      let (y, b) ← evalAll ss b x
      let it ← W.next it
      let ys ← filterLoop W ss f it { b with snTop := 0, sbTop := 0 }
      some (y.toList ++ ys)

/-- `c_filter` (filter.h 61-62), `c_filter_from`, and the reverse forms, depending on the iterator. -/
def filter (W : Walker ι α) (ss : List (Stage α)) (f : Nat) (start : ι) : Option (List α) :=
  filterLoop W ss f start .init

/-- Two iterators in step, as `_c_filter_zip` uses them (filter.h 103-113): the loop goes on while
both pointers are not NULL. -/
def zipWalker {ι₁ ι₂ α β : Type} (V : Walker ι₁ α) (W : Walker ι₂ β) : Walker (ι₁ × ι₂) (α × β) where
  ref it := if (V.ref it.1).isSome ∧ (W.ref it.2).isSome then some 0 else none
  load it := do
    let x ← V.load it.1
    let y ← W.load it.2
    some (x, y)
  next it := do
    let i ← V.next it.1
    let j ← W.next it.2
    some (i, j)

/-! ### the iterators of the containers -/

/-- The iterators of vec and stack (vec.h 215-234, stack.h 213-232). -/
def vecWalker (v : Vec.Vec α) : Walker Vec.Iter α where
  ref it := it.ref
  load it := do
    let b ← v.blk
    let r ← it.ref
    b.rd r
  next it := some (Vec.next it)

/-- The iterators of deque and queue (queue_prv.h 115-138). -/
def dequeWalker (d : Deque.Deque α) : Walker Deque.Iter α where
  ref it := it.ref
  load it := do
    let b ← d.cbuf
    let r ← it.ref
    b.rd r
  next it := Deque.next d it

/-- The same backwards (queue_prv.h 121-126, 140-144). -/
def dequeRWalker (d : Deque.Deque α) : Walker Deque.Iter α where
  ref it := it.ref
  load it := do
    let b ← d.cbuf
    let r ← it.ref
    b.rd r
  next it := Deque.rnext d it

/-- The iterators of hmap (hmap.h 239-243, 297-306). -/
def hmapWalker {κ ν : Type} (m : Hmap.Map κ ν) : Walker (Option Nat) (κ × ν) where
  ref it := it
  load it := do
    let i ← it
    let e ← m.table[i]?
    e
  next it := it.bind (Hmap.next m)

/-- The iterators of smap (smap.h 265-290). -/
def smapWalker {κ ν : Type} (m : Smap.Map κ ν) : Walker Smap.Iter (κ × ν) where
  ref it := it.ref
  load it := do
    let i ← it.ref
    Smap.load m.nodes i
  next it := Smap.next m it

/-- The iterators of list (list.h 180-194). -/
def listWalker (m : Clist.Mem α) : Walker Clist.Iter α where
  ref it := it.ref
  load it := do
    let a ← it.ref
    let c ← m.heap.rd a
    some c.value
  next it := Clist.next m.heap m.last it

/-- The iterators of crange. -/
def rangeWalker (w : Nat) : Walker RIter Int where
  ref it := it.ref.map fun _ => 0
  load it := it.ref
  next it := rangeNext w it

/-! ### reversing -/

/-- `c_reverse` and `c_reverse_array` (utility.h 58-70), on anything with `at_mut`: `get` and `set`
read and write an element. -/
def reverseLoop {σ : Type} (get : σ → Nat → Option α) (set : σ → Nat → α → Option σ) : Nat → Int → Int → σ → Option σ
  | 0, _, _, _ => none
  | f + 1, i, j, s =>
    if i < j then do
      let x ← get s i.toNat
      let y ← get s j.toNat
      let s ← set s i.toNat y
      let s ← set s j.toNat x
      reverseLoop get set f (i + 1) (j - 1) s
    else some s

/-! ### erasing -/

/-- The first loop of `c_eraseremove_if` (utility.h 96-97). -/
def skipKept (W : Walker ι α) (p : α → Bool) : Nat → ι → Option ι
  | 0, _ => none
  | f + 1, it =>
    match W.ref it with
    | none => some it
    | some _ => do
      let x ← W.load it
      if p x then some it
      else do
        let it ← W.next it
        skipKept W p f it

/-- The second loop of `c_eraseremove_if` (utility.h 98-101) on a vec or stack: destroy, or move down.
`i` and `it` are the two iterators. -/
def sweepVec (p : α → Bool) : Nat → Vec.Vec α → Vec.Iter → Vec.Iter → Nat → Option (Vec.Vec α × Nat)
  | 0, _, _, _, _ => none
  | f + 1, v, i, it, n =>
    match it.ref with
    | none => some (v, n)
    | some r => do
      let b ← v.blk
      let x ← b.rd r
      if p x then do
        let (x, b) ← b.kill r
        sweepVec p f { v with data := some b, dropped := v.dropped ++ [x] } i (Vec.next it) (n + 1)
      else do
        let q ← i.ref
        let (x, b) ← b.kill r
        let b ← b.wr q x
        sweepVec p f { v with data := some b } (Vec.next i) (Vec.next it) n

/-- `c_eraseremove_if` (utility.h 91-103) on a vec or stack; `_adjust_end_` (vec.h 247-248). -/
def eraseRemoveVec (p : α → Bool) (f : Nat) (v : Vec.Vec α) : Option (Vec.Vec α) := do
  let it ← skipKept (vecWalker v) p f (Vec.begin v)
  let (v, n) ← sweepVec p f v it it 0
  guard (n ≤ v.size)
  some { v with size := v.size - n }

/-- The second loop of `c_eraseremove_if` (utility.h 98-101) on a deque or queue. -/
def sweepDeque (p : α → Bool) : Nat → Deque.Deque α → Deque.Iter → Deque.Iter → Nat → Option (Deque.Deque α × Nat)
  | 0, _, _, _, _ => none
  | f + 1, d, i, it, n =>
    match it.ref with
    | none => some (d, n)
    | some r => do
      let b ← d.cbuf
      let x ← b.rd r
      if p x then do
        let (x, b) ← b.kill r
        let d := { d with cbuf := some b, dropped := d.dropped ++ [x] }
        let it ← Deque.next d it
        sweepDeque p f d i it (n + 1)
      else do
        let q ← i.ref
        let (x, b) ← b.kill r
        let b ← b.wr q x
        let d := { d with cbuf := some b }
        let i ← Deque.next d i
        let it ← Deque.next d it
        sweepDeque p f d i it n

/-- `c_eraseremove_if` (utility.h 91-103) on a deque or queue; `_adjust_end_` (queue_prv.h 149-150). -/
def eraseRemoveDeque (p : α → Bool) (f : Nat) (d : Deque.Deque α) : Option (Deque.Deque α) := do
  let it ← skipKept (dequeWalker d) p f (Deque.begin d)
  let (d, n) ← sweepDeque p f d it it 0
  some { d with fin := Common.land ((d.fin : Int) - n) d.capmask }

/-- `c_erase_if` (utility.h 77-84) on a smap or sset. -/
def eraseIfSmap {κ ν : Type} (cmp : κ → κ → Int) (inl : Bool) (p : κ × ν → Bool) :
    Nat → Smap.Map κ ν → Smap.Iter → Option (Smap.Map κ ν × List (Smap.Own κ ν))
  | 0, _, _ => none
  | f + 1, m, it =>
    match it.ref with
    | none => some (m, [])
    | some i => do
      let e ← Smap.load m.nodes i
      if p e then do
        let (it, m, ds) ← Smap.eraseAt cmp inl m it
        let (m, ds') ← eraseIfSmap cmp inl p f m it
        some (m, ds ++ ds')
      else do
        let it ← Smap.next m it
        eraseIfSmap cmp inl p f m it

end Verif.Algo
