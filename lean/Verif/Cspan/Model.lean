import Verif.Base
/-
Model of `include/stc/cspan.h`: multi-dimensional array views.

A span is its `data` pointer (an element address, `none` = NULL), its `shape` and its `stride`
array, both of `RANK` entries of type `int32_t`. Element addresses are integers; whether an
address may be dereferenced is decided by the memory the span points into. Signed overflow is
undefined behaviour (`none`), and so is a failed `c_assert`.

Simplified: pointer arithmetic itself is never undefined, only the dereference; loops over the
dimensions that run through `shape`, `stride` and `args` in parallel are recursions over these
lists. `cspan_print` is in `Print`.
-/
namespace Verif.Cspan

/-- The value of an `int32_t` expression; overflow is undefined. -/
def i32 (x : Int) : Option Int := if -2147483648 ≤ x ∧ x < 2147483648 then some x else none

/-- The value of an `isize` (`ptrdiff_t`, 64 bits) expression; overflow is undefined. -/
def isz (x : Int) : Option Int :=
  if -9223372036854775808 ≤ x ∧ x < 9223372036854775808 then some x else none

/-- `(_istride)x`: conversion wraps. -/
def toI32 (x : Int) : Int := (x + 2147483648) % 4294967296 - 2147483648

/-- `c_uless(a, b)`: `(size_t)(a) < (size_t)(b)` (common.h 127). -/
def uless (a b : Int) : Bool := decide (a % 18446744073709551616 < b % 18446744073709551616)

/-- `c_END` (cspan.h 234). -/
def END : Int := 2147483647

/-- A span (cspan.h 89-93). -/
structure Span where
  data : Option Int
  shape : List Int
  stride : List Int
deriving DecidableEq, Repr

/-- `cspan_from_n` (cspan.h 154-157). -/
def fromN (data : Int) (n : Int) : Span := ⟨some data, [toI32 n], [1]⟩

/-- The loop of `_cspan_size` (cspan.h 309-313). -/
def sizeLoop (shape : List Int) : Nat → Int → Option Int
  | 0, size => some size
  | r + 1, size => do
    let n ← shape[r + 1]?
    let size ← isz (size * n)
    sizeLoop shape r size

/-- `_cspan_size` (cspan.h 309-313). -/
def size (s : Span) : Option Int := do
  let n ← s.shape[0]?
  sizeLoop s.shape (s.shape.length - 1) n

/-- The loop of `_cspan_index` (cspan.h 329-338). -/
def indexLoop (shape stride args : List Int) : Nat → Int → Option Int
  | 0, off => some off
  | r + 1, off => do
    let a ← args[r]?
    let n ← shape[r]?
    guard (uless a n)
    let t ← stride[r]?
    let p ← isz (a * t)
    let off ← isz (off + p)
    indexLoop shape stride args r off

/-- `cspan_index` (cspan.h 189-191, 329-338); the number of arguments is checked statically. -/
def index (s : Span) (args : List Int) : Option Int := do
  guard (args.length = s.shape.length)
  indexLoop s.shape s.stride args s.shape.length 0

/-- `cspan_at` (cspan.h 186). -/
def at' (s : Span) (args : List Int) : Option Int := do
  let d ← s.data
  let off ← index s args
  some (d + off)

/-- `cspan_front` (cspan.h 187). -/
def front (s : Span) : Option Int := s.data

/-- `cspan_back` (cspan.h 188). -/
def back (s : Span) : Option Int := do
  let d ← s.data
  let n ← size s
  some (d + n - 1)

/-- `c_swap(arr + i, arr + j)` (common.h). -/
def swap (l : List Int) (i j : Nat) : Option (List Int) := do
  let x ← l[i]?
  let y ← l[j]?
  some ((l.set i y).set j x)

/-- `_cspan_swap_axes` (cspan.h 315-320). -/
def swapAxes (s : Span) (i j : Int) : Option Span := do
  guard (uless i s.shape.length ∧ uless j s.shape.length)
  let sh ← swap s.shape i.toNat j.toNat
  let st ← swap s.stride i.toNat j.toNat
  some ⟨s.data, sh, st⟩

/-- The loop of `_cspan_transpose` (cspan.h 322-327). -/
def transLoop : Nat → Nat → List Int → List Int → Option (List Int × List Int)
  | _, 0, sh, st => some (sh, st)
  | i, r + 1, sh, st =>
    if i < r then do
      let sh ← swap sh i r
      let st ← swap st i r
      transLoop (i + 1) r sh st
    else some (sh, st)

/-- `_cspan_transpose` (cspan.h 322-327). -/
def transpose (s : Span) : Option Span := do
  let (sh, st) ← transLoop 0 s.shape.length s.shape s.stride
  some ⟨s.data, sh, st⟩

/-- `cspan_layout` (cspan.h 195), the two layouts that can be asked for. -/
inductive Layout where
  | row
  | col
deriving DecidableEq, Repr

/-- The loop of `_cspan_shape2stride` (cspan.h 407-412). -/
def s2sLoop (lay : Layout) : Nat → Nat → Int → Int → List Int → Option (List Int)
  | 0, _, _, _, a => some a
  | r + 1, i, k, s1, a => do
    let i := match lay with
      | .col => i + 1
      | .row => i - 1
    let s2 ← a[i]?
    let k ← i32 (k * s1)
    s2sLoop lay r i k s2 (a.set i k)

/-- `_cspan_shape2stride` (cspan.h 400-414). -/
def shape2stride (lay : Layout) (shape : List Int) : Option (List Int) := do
  let i := match lay with
    | .col => 0
    | .row => shape.length - 1
  let s1 ← shape[i]?
  s2sLoop lay (shape.length - 1) i 1 s1 (shape.set i 1)

/-- `cspan_md_layout` (cspan.h 212-216), `cspan_md` (cspan.h 204-205). -/
def md (lay : Layout) (data : Int) (shape : List Int) : Option Span := do
  let st ← shape2stride lay shape
  some ⟨some data, shape, st⟩

/-- `_cspan_is_layout` (cspan.h 364-369). -/
def isLayout (lay : Layout) (s : Span) : Option Bool := do
  let st ← shape2stride lay s.shape
  some (decide (s.stride = st))

/-! ### sub-spans -/

/-- One slice argument `{x0, x1, xs}`; missing members are 0. -/
structure Arg where
  start : Int
  stop : Int
  step : Int
deriving DecidableEq, Repr

/-- `end` in `_cspan_slice` (cspan.h 426-427). -/
def stopOf (n : Int) (g : Arg) : Int := if g.stop = END then n else g.stop

/-- One dimension of `_cspan_slice` with a range argument (cspan.h 429-435): new extent and
stride. -/
def sliceDim (n t : Int) (g : Arg) : Option (Int × Int) := do
  let len ← isz (stopOf n g - g.start)
  guard (0 < toI32 len ∧ ¬ uless n (stopOf n g))
  if 0 < g.step then do
    let t ← i32 (t * toI32 g.step)
    guard (toI32 g.step ≠ 0)
    let d ← i32 ((toI32 len - 1).tdiv (toI32 g.step) + 1)
    some (d, t)
  else some (toI32 len, t)

/-- The loop of `_cspan_slice` (cspan.h 422-437): offset, new shape, new stride. -/
def sliceLoop : List Int → List Int → List Arg → Int → Option (Int × List Int × List Int)
  | n :: ns, t :: ts, g :: gs, off => do
    let p ← isz (g.start * t)
    let off ← isz (off + p)
    if g.stop = 0 then do
      guard (uless g.start n)
      sliceLoop ns ts gs off
    else do
      let (d, t) ← sliceDim n t g
      let (off, sh, st) ← sliceLoop ns ts gs off
      some (off, d :: sh, t :: st)
  | [], [], [], off => some (off, [], [])
  | _, _, _, _ => none

/-- `cspan_slice` to a span type of rank `rank` (cspan.h 101-107, 237-240, 416-440). -/
def slice (s : Span) (rank : Nat) (args : List Arg) : Option Span := do
  let d ← s.data
  let (off, sh, st) ← sliceLoop s.shape s.stride args 0
  guard (sh.length = rank)
  some ⟨some (d + off), sh, st⟩

/-- `cspan_subspan` (cspan.h 177-180). -/
def subspan (s : Span) (offset count : Int) : Option Span := do
  let d ← at' s [offset]
  some ⟨some d, [toI32 count], s.stride⟩

/-- `cspan_submd2`, `cspan_submd3`, `cspan_submd4` (cspan.h 249-276): fix the first indices. -/
def submd (s : Span) (xs : List Int) : Option Span := do
  let d ← at' s (xs ++ List.replicate (s.shape.length - xs.length) 0)
  some ⟨some d, s.shape.drop xs.length, s.stride.drop xs.length⟩

/-! ### iteration -/

/-- `Span_iter` without the span (cspan.h 95-99). -/
structure Iter where
  ref : Option Int
  pos : List Int
deriving DecidableEq, Repr

/-- `Span_begin` (cspan.h 108-110). -/
def begin (s : Span) : Iter := ⟨s.data, List.replicate s.shape.length 0⟩

/-- `_cspan_next1` (cspan.h 345): new position, offset, done. -/
def next1 (shape stride pos : List Int) : Option (List Int × Int × Bool) := do
  let x ← pos[0]?
  let x ← i32 (x + 1)
  let n ← shape[0]?
  let t ← stride[0]?
  some (pos.set 0 x, t, decide (x = n))

/-- The loop of `_cspan_next2` (cspan.h 392-396), with the counter at `rank`. -/
def carry (shape stride : List Int) : Nat → List Int → Int → Option (List Int × Int × Bool)
  | 0, pos, off => do
    let x ← pos[0]?
    let n ← shape[0]?
    some (pos, off, decide (x = n))
  | r + 1, pos, off => do
    let x ← pos[r + 1]?
    let n ← shape[r + 1]?
    if x = n then do
      let y ← pos[r]?
      let y ← i32 (y + 1)
      let t ← stride[r + 1]?
      let u ← stride[r]?
      let p ← isz (n * t)
      let q ← isz (u - p)
      let off ← isz (off + q)
      carry shape stride r ((pos.set (r + 1) 0).set r y) off
    else some (pos, off, false)

/-- `_cspan_next2` (cspan.h 387-398). -/
def next2 (shape stride pos : List Int) : Option (List Int × Int × Bool) := do
  let t ← stride[shape.length - 1]?
  let x ← pos[shape.length - 1]?
  let x ← i32 (x + 1)
  carry shape stride (shape.length - 1) (pos.set (shape.length - 1) x) t

/-- `_cspan_next##RANK` (cspan.h 345-351). -/
def nextN (shape stride pos : List Int) : Option (List Int × Int × Bool) :=
  if shape.length = 1 then next1 shape stride pos else next2 shape stride pos

/-- `Span_next` (cspan.h 115-119). -/
def next (s : Span) (it : Iter) : Option Iter := do
  let r ← it.ref
  let (pos, off, done) ← nextN s.shape s.stride it.pos
  some ⟨if done then none else some (r + off), pos⟩

/-- The addresses and positions visited by `c_each(it, Span, s)` (common.h 164-165) from `it` on,
if the loop ends after at most `f` steps. -/
def eachLoop (s : Span) : Nat → Iter → Option (List (List Int × Int))
  | f, it =>
    match it.ref with
    | none => some []
    | some a =>
      match f with
      | 0 => none
      | f + 1 => do
        let it' ← next s it
        let rest ← eachLoop s f it'
        some ((it.pos, a) :: rest)

/-- `c_each` over a span. -/
def each (s : Span) (f : Nat) : Option (List (List Int × Int)) := eachLoop s f (begin s)

/-! ### functions that access the elements -/

variable {β : Type}

/-- The loop of `cspan_set_all` (cspan.h 227-230). -/
def setAllLoop (s : Span) (v : β) : Nat → Iter → (Int → Option β) → Option (Int → Option β)
  | f, it, mem =>
    match it.ref with
    | none => some mem
    | some a =>
      match f with
      | 0 => none
      | f + 1 => do
        let _ ← mem a
        let it' ← next s it
        setAllLoop s v f it' (fun b => if b = a then some v else mem b)

/-- `cspan_set_all` (cspan.h 227-230). -/
def setAll (s : Span) (v : β) (f : Nat) (mem : Int → Option β) : Option (Int → Option β) :=
  setAllLoop s v f (begin s) mem

/-- The loop of `Span_eq` (cspan.h 131-133). -/
def eqLoop (eq : β → β → Bool) (mem : Int → Option β) (x y : Span) : Nat → Iter → Iter → Option Bool
  | f, i, j =>
    match i.ref with
    | none => some true
    | some a =>
      match f with
      | 0 => none
      | f + 1 => do
        let b ← j.ref
        let u ← mem a
        let v ← mem b
        if eq u v then do
          let i ← next x i
          let j ← next y j
          eqLoop eq mem x y f i j
        else some false

/-- `Span_eq`, `Span_equals` (cspan.h 128-137). -/
def eq (eq : β → β → Bool) (mem : Int → Option β) (x y : Span) (f : Nat) : Option Bool :=
  if x.shape ≠ y.shape then some false
  else eqLoop eq mem x y f (begin x) (begin y)

end Verif.Cspan
