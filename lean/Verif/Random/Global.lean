import Verif.Random.Model
import Verif.Random.Normal
/-
Model of the functions of `include/stc/random.h` that use the hidden generators `_stc64()` and
`_stc32()`, next to those that use a generator of the caller (`…_r`).

`_stc64` and `_stc32` are `static inline` functions (common.h 51-53) with a `static` variable, so every
source file of a program (a unit, by number) has its own hidden generators. `crand64_normal` is
different: with the default linkage (random.h 23, `i_header`) it is compiled once, in the library
(`src/random.c`), and so uses the hidden generator of that file.

A variable of the caller that has not been given a state is `none`; using it is undefined. The number
of draws a loop may take is a parameter, as in `Model.lean`; the floating point part of the normal
distribution is a parameter, as in `Normal.lean`. Results of type `double` are given by their
numerators. Not modelled: variables of type `crand32`.
-/
namespace Verif.Random.Global

/-- The generators of a program: the hidden ones of each unit (random.h 94-97, 177-180) and the
caller's variables of type `crand64`. -/
structure World where
  g64 : Nat → Rng 64
  g32 : Nat → Rng 32
  var : Nat → Option (Rng 64)

/-- The initial values of `_stc64()::rng` (random.h 95) and `_stc32()::rng` (random.h 178). -/
def World.init : World where
  g64 _ := ⟨0x9e3779bb07979af0#64, 0x6f682616bae3641a#64, 0xe220a8397b1dcdaf#64, 0x1#64⟩
  g32 _ := ⟨0x9e37e78e#32, 0x6eab1ba1#32, 0x64625032#32, 0x1#32⟩
  var _ := none

/-- The unit of `src/random.c`. -/
def lib : Nat := 0

/-- The functions (random.h 52-71, 73-150, 156-218, 228-250). -/
inductive Call (V : Type) where
  | seed (s : BitVec 64) | uint | real | uniform (d : Random.Dist 64) | normal (d : Normal.Dist V)
  | shuffleSeed (s : BitVec 64) | shuffle (l : List Nat)
  | seed32 (s : BitVec 32) | uint32 | real32 | uniform32 (d : Random.Dist 32)
  | from_ (k : Nat) (s : BitVec 64) | seedR (k : Nat) (s : BitVec 64)
  | uintR (k : Nat) (st : BitVec 64) | realR (k : Nat) (st : BitVec 64)
  | uniformR (k : Nat) (st : BitVec 64) (d : Random.Dist 64) | normalR (k : Nat) (st : BitVec 64) (d : Normal.Dist V)

/-- What a call gives back; `crand64_normal` changes the distribution, shuffling the elements. -/
inductive Res (V : Type) where
  | nothing | word (x : BitVec 64) | word32 (x : BitVec 32) | num (x : Nat) | int (x : Int)
  | normal (x : V) (d : Normal.Dist V) | elems (l : List Nat)
deriving DecidableEq, Repr

/-- Assignment to one of a family of variables. -/
def upd {β : Type} (f : Nat → β) (i : Nat) (x : β) : Nat → β := fun j => if j = i then x else f j

variable {V : Type}

/-- A call in unit `u`; the lines are given at each case. -/
def exec (a : Normal.Arith V) (f : Nat) (w : World) (u : Nat) : Call V → Option (Res V × World)
  -- crand64_seed (random.h 99-100)
  | .seed s => some (.nothing, { w with g64 := upd w.g64 u (seed64 s) })
  -- crand64_uint (random.h 105-106)
  | .uint => some (.word (uint64 1 (w.g64 u)).1, { w with g64 := upd w.g64 u (uint64 1 (w.g64 u)).2 })
  -- crand64_real (random.h 108-109)
  | .real => some (.num (real64 1 (w.g64 u)).1, { w with g64 := upd w.g64 u (real64 1 (w.g64 u)).2 })
  -- crand64_uniform (random.h 149-150)
  | .uniform d => (Random.uniform 64 (uint64 1) d f (w.g64 u)).bind fun r =>
      some (.int r.1, { w with g64 := upd w.g64 u r.2 })
  -- crand64_normal (random.h 245-246), compiled in src/random.c
  | .normal d => (Normal.normal (uint64 1) a f d (w.g64 lib)).bind fun r =>
      some (.normal r.1 r.2.1, { w with g64 := upd w.g64 lib r.2.2 })
  -- c_shuffle_seed (random.h 52-53)
  | .shuffleSeed s => some (.nothing, { w with g64 := upd w.g64 u (seed64 s) })
  -- c_shuffle, c_shuffle_array (random.h 55-71)
  | .shuffle l => (Random.shuffle (uint64 1) l (w.g64 u)).bind fun r =>
      some (.elems r.1, { w with g64 := upd w.g64 u r.2 })
  -- crand32_seed (random.h 182-183)
  | .seed32 s => some (.nothing, { w with g32 := upd w.g32 u (Random.seed32 s) })
  -- crand32_uint (random.h 188-189)
  | .uint32 => some (.word32 (Random.uint32 1 (w.g32 u)).1, { w with g32 := upd w.g32 u (Random.uint32 1 (w.g32 u)).2 })
  -- crand32_real (random.h 191-192)
  | .real32 => some (.num (Random.real32 1 (w.g32 u)).1, { w with g32 := upd w.g32 u (Random.real32 1 (w.g32 u)).2 })
  -- crand32_uniform (random.h 217-218)
  | .uniform32 d => (Random.uniform 32 (Random.uint32 1) d f (w.g32 u)).bind fun r =>
      some (.int r.1, { w with g32 := upd w.g32 u r.2 })
  -- crand64_from (random.h 102-103)
  | .from_ k s => some (.nothing, { w with var := upd w.var k (some (seed64 s)) })
  -- crand64_seed_r (random.h 73-79)
  | .seedR k s => some (.nothing, { w with var := upd w.var k (some (seed64 s)) })
  -- crand64_uint_r (random.h 82-89)
  | .uintR k st => (w.var k).bind fun g => some (.word (uint64 st g).1, { w with var := upd w.var k (some (uint64 st g).2) })
  -- crand64_real_r (random.h 91-92)
  | .realR k st => (w.var k).bind fun g => some (.num (real64 st g).1, { w with var := upd w.var k (some (real64 st g).2) })
  -- crand64_uniform_r (random.h 136-147)
  | .uniformR k st d => (w.var k).bind fun g => (Random.uniform 64 (uint64 st) d f g).bind fun r =>
      some (.int r.1, { w with var := upd w.var k (some r.2) })
  -- crand64_normal_r (random.h 228-243)
  | .normalR k st d => (w.var k).bind fun g => (Normal.normal (uint64 st) a f d g).bind fun r =>
      some (.normal r.1 r.2.1, { w with var := upd w.var k (some r.2.2) })

/-- A program: calls with the unit each is made in. -/
def run (a : Normal.Arith V) (f : Nat) : World → List (Nat × Call V) → Option (List (Res V) × World)
  | w, [] => some ([], w)
  | w, c :: cs => (exec a f w c.1 c.2).bind fun r => (run a f r.2 cs).bind fun q => some (r.1 :: q.1, q.2)

end Verif.Random.Global
