import Verif.Csview.Model
/-
Model of the hash functions of `include/stc/common.h` for keys that are not strings: `c_hash_n`, used by
default for every key type of the hash map and set, and `c_hash_mix`, offered to combine the
hashes of the members of a compound key.

A key is the list of its bytes in memory; reading past them is undefined (`none`). `size_t` has 64
bits and the machine is little-endian. `c_basehash_n` is `Csview.basehash`.

Floating point keys are given by their bit pattern; `==` on them is modelled as in IEEE 754 (a NaN is
equal to nothing, the two zeros are equal, otherwise the patterns decide).
-/
namespace Verif.Hash
open Verif.Utf8 Verif.Csview

/-- `memcpy(&x, key, n)` into an unsigned integer of `n ≤ 8` bytes (common.h 269-270), as 64 bits. -/
def load (key : List Byte) (n : Nat) : Option (BitVec 64) :=
  if n ≤ key.length then some (blend 0#64 (key.take n)) else none

/-- `c_hash_n` (common.h 266-273); `c_default_hash(vp)` is `c_hash_n(vp, sizeof *vp)` (common.h 135). -/
def hashN (key : List Byte) (len : Nat) : Option (BitVec 64) :=
  if len = 8 then (load key 8).map (· * 0xc6a4a7935bd1e99d#64)
  else if len = 4 then (load key 4).map (· * 0xa2ffeb2f01000193#64)
  else basehash key len

/-- `_chash_mix` (common.h 281-284): `h[0] += h[0] ^ h[i]` for `i = 1, …, n-1`. -/
def mixLoop (h0 : BitVec 64) : List (BitVec 64) → BitVec 64
  | [] => h0
  | x :: xs => mixLoop (h0 + (h0 ^^^ x)) xs

/-- `c_hash_mix(h0, …)` (common.h 278-279). Without arguments the array would be empty: undefined. -/
def mix : List (BitVec 64) → Option (BitVec 64)
  | [] => none
  | h :: t => some (mixLoop h t)

/-- `*x == *y` (`c_default_eq`, common.h 132) for `double`, by bit pattern. -/
def f64eq (x y : BitVec 64) : Bool :=
  let mag := fun z : BitVec 64 => z &&& 0x7fffffffffffffff#64
  let nan := fun z : BitVec 64 => decide ((mag z).toNat > 0x7ff0000000000000)
  !nan x && !nan y && (x == y || (mag x == 0#64 && mag y == 0#64))

/-- The eight bytes of a 64-bit object in memory (little-endian). -/
def bytes64 (x : BitVec 64) : List Byte :=
  (List.range 8).map fun i => (x >>> (8 * i)).setWidth 8

end Verif.Hash
