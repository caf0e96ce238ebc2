/-
Model of general helpers of include/stc/common.h.
-/
namespace Verif.Common

/-- common.h:297-306 `c_next_pow2` (64-bit branch). `isize` is a natural number; `n = 0` (where
the C code computes with -1) is excluded by every caller and by the theorems. -/
def nextPow2 (n : Nat) : Nat :=
  let n := n - 1
  let n := n ||| (n >>> 1)
  let n := n ||| (n >>> 2)
  let n := n ||| (n >>> 4)
  let n := n ||| (n >>> 8)
  let n := n ||| (n >>> 16)
  let n := n ||| (n >>> 32)
  n + 1

/-- `x & m` for a two's complement `x` and a non-negative mask `m` (as in queue_prv.h:38-39):
for `x = -(n+1)` the bits of `x` are the complement of the bits of `n`. -/
def land : Int → Nat → Nat
  | .ofNat n, m => n &&& m
  | .negSucc n, m => m - (m &&& n)

end Verif.Common
