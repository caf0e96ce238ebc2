import Verif.Random.Model
/-
Model of `crand64_normal_r` (`include/stc/random.h` 228-246), the polar method for normally distributed
numbers: points of a square are drawn until one lies within the unit circle; the point gives two
numbers, of which the second is kept for the next call.

The floating point arithmetic is a parameter: `accept` (the test `!(sq >= 1.0 || sq == 0.0)`),
`fst`, `snd` (`v1*rt`, `v2*rt`) and `scale` (`x*stddev + mean`), as functions of the integers
`(int64_t)u >> 11`, of which the coordinates are the 2^52nd parts. Modelled exactly are the integers,
the drawing and the counter `_has_next`, an `int` whose overflow is undefined (`none`). A loop that
has not ended after the given number of points is `none`.
-/
namespace Verif.Random.Normal

/-- The floating point part of random.h 229-243, see above. -/
structure Arith (V : Type) where
  accept : Int → Int → Bool
  fst : Int → Int → V
  snd : Int → Int → V
  scale : V → V

/-- `crand64_normal_dist` (random.h 37-41) without `mean` and `stddev`. -/
structure Dist (V : Type) where
  next : V
  hasNext : Int
deriving DecidableEq, Repr

/-- `(int64_t)crand64_uint_r(rng, stream) >> 11` (random.h 235-236), an arithmetic shift. -/
def coord (gen : σ → BitVec 64 × σ) (s : σ) : Int × σ :=
  let (u, s) := gen s
  ((u.sshiftRight 11).toInt, s)

/-- The loop (random.h 233-239). -/
def draw (gen : σ → BitVec 64 × σ) (a : Arith V) : Nat → σ → Option ((Int × Int) × σ)
  | 0, _ => none
  | f + 1, s =>
    let (v1, s) := coord gen s
    let (v2, s) := coord gen s
    if a.accept v1 v2 then some ((v1, v2), s) else draw gen a f s

/-- `crand64_normal_r` (random.h 228-243). -/
def normal (gen : σ → BitVec 64 × σ) (a : Arith V) (f : Nat) (d : Dist V) (s : σ) : Option (V × Dist V × σ) :=
  if d.hasNext + 1 > 2147483647 then none
  else if d.hasNext % 2 = 1 then some (a.scale d.next, { d with hasNext := d.hasNext + 1 }, s)
  else (draw gen a f s).bind fun r =>
    some (a.scale (a.fst r.1.1 r.1.2), ⟨a.snd r.1.1 r.1.2, d.hasNext + 1⟩, r.2)

/-- `n` calls with the same distribution object. -/
def calls (gen : σ → BitVec 64 × σ) (a : Arith V) (f : Nat) : Nat → Dist V → σ → Option (List V)
  | 0, _, _ => some []
  | n + 1, d, s => (normal gen a f d s).bind fun r => (calls gen a f n r.2.1 r.2.2).map (r.1 :: ·)

/-! ### Specification -/

/-- The first `k` points the generator gives. -/
def points (gen : σ → BitVec 64 × σ) : Nat → σ → List (Int × Int)
  | 0, _ => []
  | k + 1, s =>
    ((((gen s).1.sshiftRight 11).toInt, ((gen (gen s).2).1.sshiftRight 11).toInt)) :: points gen k (gen (gen s).2).2

/-- The numbers the accepted ones among the points stand for: two each. -/
def deviates (a : Arith V) (ps : List (Int × Int)) : List V :=
  (ps.filter fun p => a.accept p.1 p.2).flatMap fun p => [a.scale (a.fst p.1 p.2), a.scale (a.snd p.1 p.2)]

end Verif.Random.Normal
