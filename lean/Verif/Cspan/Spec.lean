import Verif.Cspan.Model
import Mathlib.Data.List.Basic
/- What spans mean: a span of shape `ns` is a function from index tuples to addresses. -/
namespace Verif.Cspan.Spec

/-- `idx` is an index tuple of a span with extents `ns`. -/
def InRange (idx ns : List Nat) : Prop := List.Forall₂ (· < ·) idx ns

/-- Conversion of a tuple. -/
def ints (l : List Nat) : List Int := l.map Int.ofNat

/-- `Σ idx i * stride i`. -/
def dot : List Nat → List Int → Int
  | i :: is, t :: ts => i * t + dot is ts
  | _, _ => 0

/-- `Σ n i * |stride i|`: a bound on the distances inside the span. -/
def extent : List Nat → List Int → Nat
  | n :: ns, t :: ts => n * t.natAbs + extent ns ts
  | _, _ => 0

/-- The span has extents `ns`, and its index arithmetic fits: entries are `int32_t`, distances
below `2^62`. -/
structure Shape (s : Span) (ns : List Nat) : Prop where
  shape : s.shape = ints ns
  rank : s.stride.length = ns.length
  pos : 0 < ns.length
  fits : ∀ n ∈ ns, n < 2147483648
  small : extent ns s.stride < 4611686018427387904

/-- The address of the element at `idx`. -/
def addr (s : Span) (idx : List Nat) : Int := s.data.getD 0 + dot idx s.stride

/-- Row-major number of an index tuple. -/
def rowRank : List Nat → List Nat → Nat
  | i :: is, _ :: ns => i * ns.prod + rowRank is ns
  | _, _ => 0

/-- Column-major number: the first index runs fastest. -/
def colRank (idx ns : List Nat) : Nat := rowRank idx.reverse ns.reverse

/-- Number in a layout. -/
def layoutRank : Layout → List Nat → List Nat → Nat
  | .row => rowRank
  | .col => colRank

/-- All index tuples. -/
def tuples : List Nat → List (List Nat)
  | [] => [[]]
  | n :: ns => (List.range n).flatMap fun i => (tuples ns).map (i :: ·)

/-- The end of a range argument: the extent if `c_END` is given. -/
def endOf (n : Int) (g : Arg) : Int := if g.stop = 2147483647 then n else g.stop

/-- Slice arguments that the documentation allows for an extent: one index, or a non-empty range
inside, with a step that fits. -/
def ArgOk (n : Nat) (t : Int) (g : Arg) : Prop :=
  (g.stop = 0 ∧ 0 ≤ g.start ∧ g.start < n) ∨
  (g.stop ≠ 0 ∧ 0 ≤ g.start ∧ g.start < endOf n g ∧ endOf n g ≤ n ∧ 0 ≤ g.step ∧ g.step < 2147483648 ∧
    g.step.natAbs * t.natAbs < 2147483648)

/-- All arguments are allowed. -/
def ArgsOk : List Nat → List Int → List Arg → Prop
  | n :: ns, t :: ts, g :: gs => ArgOk n t g ∧ ArgsOk ns ts gs
  | [], [], [] => True
  | _, _, _ => False

/-- The step of a range argument: 1 if not given. -/
def stepOf (g : Arg) : Nat := if g.step = 0 then 1 else g.step.toNat

/-- The index tuple of the original span that index tuple `j` of the slice stands for. -/
def pick : List Arg → List Nat → List Nat
  | g :: gs, j =>
    if g.stop = 0 then g.start.toNat :: pick gs j
    else match j with
      | i :: is => (g.start.toNat + stepOf g * i) :: pick gs is
      | [] => []
  | [], _ => []

/-- The arguments select `idx`. -/
def Selected : List Nat → List Arg → List Nat → Prop
  | n :: ns, g :: gs, i :: is =>
    (if g.stop = 0 then (i : Int) = g.start
     else g.start ≤ i ∧ (i : Int) < endOf n g ∧ (stepOf g : Int) ∣ (i - g.start)) ∧ Selected ns gs is
  | [], [], [] => True
  | _, _, _ => False

/-- Number of range arguments. -/
def outRank (gs : List Arg) : Nat := (gs.filter fun g => g.stop ≠ 0).length

/-- `l'` is `l` with entries `i` and `j` exchanged. -/
def Swapped {β : Type} (i j : Nat) (l l' : List β) : Prop :=
  l'.length = l.length ∧ ∀ k, l'[k]? = l[if k = i then j else if k = j then i else k]?

/-- Tuple `p` comes before tuple `q`: at the first difference `p` is smaller. -/
def Before (p q : List Nat) : Prop :=
  ∃ k a b, p.take k = q.take k ∧ p[k]? = some a ∧ q[k]? = some b ∧ a < b

end Verif.Cspan.Spec
