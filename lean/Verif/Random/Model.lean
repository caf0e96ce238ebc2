import Verif.Base
/-
Model of `include/stc/random.h`: the generators crand64 and crand32, the uniform distribution and
shuffling.

`uint64_t` and `uint32_t` are bit vectors; signed values are integers with overflow undefined
(`none`). The uniform distribution and the shuffle take the generator as a parameter, so that
what is proved about them holds for every random stream. A loop that has not ended after the
given number of draws is `none`.

Simplified: `double` results of `crand64_real_r` and `crand32_real_r` are given by their exact
numerators over `2^53` and `2^32`. `crand64_normal_r` is modelled in `Normal.lean`.
-/
namespace Verif.Random

/-- `crand64` (random.h 33-35) and `crand32` (random.h 154): four words. -/
structure Rng (w : Nat) where
  s0 : BitVec w
  s1 : BitVec w
  s2 : BitVec w
  s3 : BitVec w
deriving DecidableEq, Repr

/-- `crand64_seed_r` (random.h 73-79). -/
def seed64 (seed : BitVec 64) : Rng 64 :=
  let a := seed * 0x9e3779b97f4a7c15#64
  let a := a ^^^ (a >>> 30)
  let b := a * 0xbf58476d1ce4e5b9#64
  let b := b ^^^ (b >>> 27)
  let c := b * 0x94d049bb133111eb#64
  let c := c ^^^ (c >>> 31)
  ⟨a, b, c, seed⟩

/-- `crand64_uint_r` (random.h 82-89). -/
def uint64 (stream : BitVec 64) (s : Rng 64) : BitVec 64 × Rng 64 :=
  let d := s.s3 + stream
  let result := (s.s0 ^^^ d) + s.s1
  (result, ⟨s.s1 ^^^ (s.s1 >>> 11), s.s2 + (s.s2 <<< 3), ((s.s2 <<< 24) ||| (s.s2 >>> 40)) + result, d⟩)

/-- `crand32_seed_r` (random.h 156-162). -/
def seed32 (seed : BitVec 32) : Rng 32 :=
  let a := seed * 0x9e3779b9#32
  let a := a ^^^ (a >>> 16)
  let b := a * 0x21f0aaad#32
  let b := b ^^^ (b >>> 15)
  let c := b * 0x735a2d97#32
  let c := c ^^^ (c >>> 15)
  ⟨a, b, c, seed⟩

/-- `crand32_uint_r` (random.h 165-172). -/
def uint32 (stream : BitVec 32) (s : Rng 32) : BitVec 32 × Rng 32 :=
  let d := s.s3 + stream
  let result := (s.s0 ^^^ d) + s.s1
  (result, ⟨s.s1 ^^^ (s.s1 >>> 9), s.s2 + (s.s2 <<< 3), ((s.s2 <<< 21) ||| (s.s2 >>> 11)) + result, d⟩)

/-- `crand64_real_r` (random.h 91-92): the numerator over `2^53`. -/
def real64 (stream : BitVec 64) (s : Rng 64) : Nat × Rng 64 :=
  let (x, s) := uint64 stream s
  ((x >>> 11).toNat, s)

/-- `crand32_real_r` (random.h 174-175): the numerator over `2^32`. -/
def real32 (stream : BitVec 32) (s : Rng 32) : Nat × Rng 32 :=
  let (x, s) := uint32 stream s
  (x.toNat, s)

/-- The value of a signed expression of `w` bits; overflow is undefined. -/
def sig (w : Nat) (x : Int) : Option Int :=
  if -((2 : Int) ^ (w - 1)) ≤ x ∧ x < 2 ^ (w - 1) then some x else none

/-- `crand64_uniform_dist` (random.h 116-119), `crand32_uniform_dist` (random.h 196-199). -/
structure Dist (w : Nat) where
  low : Int
  range : BitVec w
  threshold : BitVec w
deriving DecidableEq, Repr

/-- `crand64_make_uniform` (random.h 121-126), `crand32_make_uniform` (random.h 201-206). -/
def makeUniform (w : Nat) (low high : Int) : Option (Dist w) := do
  let x ← sig w (high - low)
  let x ← sig w (x + 1)
  let range := BitVec.ofInt w x
  guard (range ≠ 0#w)
  some ⟨low, range, (0#w - range) % range⟩

variable {σ : Type}

/-- `crand64_uniform_r` with `c_umul128` (random.h 128-147), `crand32_uniform_r` (random.h 208-215):
the halves of the full product of a random word and the range. -/
def uniform (w : Nat) (gen : σ → BitVec w × σ) (d : Dist w) : Nat → σ → Option (Int × σ)
  | 0, _ => none
  | f + 1, s => do
    let r := gen s
    let lo := BitVec.ofNat w (r.1.toNat * d.range.toNat)
    let hi := BitVec.ofNat w (r.1.toNat * d.range.toNat / 2 ^ w)
    if lo < d.threshold then uniform w gen d f r.2
    else do
      let v ← sig w (d.low + hi.toInt)
      some (v, r.2)

/-- `crand64_uniform_r` without a 128 bit product (random.h 144): remainders. -/
def uniformMod (w : Nat) (gen : σ → BitVec w × σ) (d : Dist w) : Nat → σ → Option (Int × σ)
  | 0, _ => none
  | f + 1, s => do
    guard (d.range ≠ 0#w)
    let r := gen s
    let hi := r.1 % d.range
    if r.1 - hi > -d.range then uniformMod w gen d f r.2
    else do
      let v ← sig w (d.low + hi.toInt)
      some (v, r.2)

variable {β : Type}

/-- `c_swap(at_mut(i), at_mut(j))` (common.h). -/
def swapAt (l : List β) (i j : Nat) : Option (List β) := do
  let x ← l[i]?
  let y ← l[j]?
  some ((l.set i y).set j x)

/-- The loop of `c_shuffle_array` (random.h 55-62) and `c_shuffle` (random.h 65-71), with `_i` as
first argument. -/
def shuffleLoop (gen : σ → BitVec 64 × σ) : Nat → List β → σ → Option (List β × σ)
  | 0, l, s => some (l, s)
  | i + 1, l, s => do
    let r := gen s
    let j := r.1 % BitVec.ofNat 64 (i + 2)
    let l ← swapAt l (i + 1) j.toNat
    shuffleLoop gen i l r.2

/-- `c_shuffle` (random.h 65-71). -/
def shuffle (gen : σ → BitVec 64 × σ) (l : List β) (s : σ) : Option (List β × σ) :=
  shuffleLoop gen (l.length - 1) l s

end Verif.Random
