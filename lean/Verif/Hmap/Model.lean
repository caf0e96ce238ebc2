import Verif.Common.Model
/-
Model of the robin-hood hash map and set, /repo/include/stc/hmap.h (hset.h is the same code with
the key as the whole entry: take `ν = Unit`).

`none` is undefined behaviour (an access outside an array, use of an indeterminate entry) or a loop
that does not end. Keys are compared and hashed by the functions given with the type (`i_eq`,
`i_hash`); conversion between stored and raw keys (`i_keytoraw`, `i_keyfrom`, `i_keyclone`) is the
identity here. `size_t`/`isize` values are `Nat`: overflow of `size*3/2 + 2` is not modelled.
The two bit fields of `struct hmap_meta` keep their C widths: 10 bits for `dist`.
-/
namespace Verif.Hmap
open Verif.Common

/-- hmap.h:57 `struct hmap_meta`. -/
structure Meta where
  hashx : Nat
  dist : Nat
deriving DecidableEq

/-- types.h:163-168: table and meta arrays (empty when NULL), size and bucket count. Table slots
that were never written are `none`; slots of erased or moved entries keep stale bits. -/
structure Map (κ ν : Type) where
  table : List (Option (κ × ν))
  metas : List Meta
  size : Nat
  bc : Nat
deriving DecidableEq

/-- The functions given with the key type: `i_hash`, `i_eq`. -/
structure Hasher (κ : Type) where
  hash : κ → BitVec 64
  eq : κ → κ → Bool

variable {κ ν : Type}

/-! ### single precision arithmetic -/

/-- The rational `a / b`, at least 2^23, rounded to the nearest number with a 24-bit significand,
ties to even (IEEE 754 single precision without overflow). -/
def rnd (a b : Nat) : Nat :=
  let s := Nat.log2 (a / b) - 23
  let q := a / (b * 2 ^ s)
  let r := a % (b * 2 ^ s)
  let q := if 2 * r < b * 2 ^ s then q else if 2 * r > b * 2 ^ s then q + 1 else q + q % 2
  q * 2 ^ s

/-- `(float)n`. -/
def toFloat (n : Nat) : Nat := if n < 2 ^ 24 then n else rnd n 1

/-- hmap.h:113 `0.80f` is 13421773 / 2^24. -/
def loadNum : Nat := 13421773

/-- hmap.h:118, 311-313 `_capacity`: `(isize)((float)bucket_count * 0.80f)`. The product has the
numerator `toFloat bc * loadNum` over 2^24. -/
def capacity (bc : Nat) : Nat :=
  if bc = 0 then 0 else rnd (toFloat bc * loadNum) 1 / 2 ^ 24

/-- hmap.h:454 `(isize)((float)_newcap / 0.80f)`: the quotient times 2^24 is
`toFloat newcap * 2^48 / loadNum`. -/
def quot (newcap : Nat) : Nat :=
  if newcap = 0 then 0 else rnd (toFloat newcap * 2 ^ 48) loadNum / 2 ^ 24

/-- hmap.h:454-455: the number of buckets for a capacity. -/
def bucketsFor (newcap : Nat) : Nat := nextPow2 (quot newcap + 4)

/-! ### lookup and insertion -/

/-- hmap.h:378: `(uint8_t)((_hash >> 24) & _hashmask)`. -/
def hashx (h : BitVec 64) : Nat := (h >>> 24 &&& 0x3f#64).toNat

/-- types.h:150-156: index, distance and whether `ref` is set. -/
structure Result where
  idx : Nat
  dist : Nat
  found : Bool
deriving DecidableEq

/-- hmap.h:381-383: whether bucket `idx` holds the key. -/
def hit (H : Hasher κ) (table : List (Option (κ × ν))) (mt : Meta) (idx : Nat) (k : κ) : Option Bool :=
  if mt.hashx = hashx (H.hash k) then do
    let c ← table[idx]?
    let e ← c
    some (H.eq e.1 k)
  else some false

/-- hmap.h:380-391, the loop of `_bucket_lookup_`. Since `meta.dist` is below 1024, 1025 rounds are
enough. -/
def lookupLoop (H : Hasher κ) (table : List (Option (κ × ν))) (metas : List Meta) (mask : Nat) (k : κ) :
    Nat → Nat → Nat → Option Result
  | 0, _, _ => none
  | f + 1, idx, dist => do
    let mt ← metas[idx]?
    if dist ≤ mt.dist then do
      let b ← hit H table mt idx k
      if b then some ⟨idx, dist, true⟩
      else lookupLoop H table metas mask k f ((idx + 1) &&& mask) (dist + 1)
    else some ⟨idx, dist, false⟩

/-- hmap.h:374-393 `_bucket_lookup_`. -/
def lookup (H : Hasher κ) (m : Map κ ν) (k : κ) : Option Result :=
  lookupLoop H m.table m.metas (m.bc - 1) k 1025 ((H.hash k).toNat &&& (m.bc - 1)) 1

/-- hmap.h:410-420, the loop of `_bucket_insert_` and the two stores after it. -/
def reorder (mask : Nat) : Nat → Nat → Meta → Option (κ × ν) → List Meta → List (Option (κ × ν)) →
    Option (List Meta × List (Option (κ × ν)))
  | 0, _, _, _, _, _ => none
  | f + 1, idx, mcur, dcur, metas, table => do
    let idx := (idx + 1) &&& mask
    let mcur : Meta := ⟨mcur.hashx, (mcur.dist + 1) % 1024⟩
    let mt ← metas[idx]?
    if mt.dist = 0 then some (metas.set idx mcur, table.set idx dcur)
    else if mt.dist < mcur.dist then do
      let d ← table[idx]?
      reorder mask f idx mt d (metas.set idx mcur) (table.set idx dcur)
    else reorder mask f idx mcur dcur metas table

/-- hmap.h:402-424: a new bucket at `idx` with distance `dist`. The entry there is still to be
written by the caller. -/
def place (m : Map κ ν) (idx dist hx : Nat) : Option (Map κ ν) := do
  let mcur ← m.metas[idx]?
  let metas := m.metas.set idx ⟨hx, dist % 1024⟩
  if mcur.dist ≠ 0 then do
    let dcur ← m.table[idx]?
    let (metas, table) ← reorder (m.bc - 1) m.bc idx mcur dcur metas m.table
    some { m with metas := metas, table := table }
  else some { m with metas := metas }

/-- hmap.h:395-424 `_bucket_insert_`: the map, the bucket, and whether it is new. -/
def bucketInsert (H : Hasher κ) (m : Map κ ν) (k : κ) : Option (Map κ ν × Nat × Bool) := do
  let r ← lookup H m k
  if r.found then some (m, r.idx, false)
  else do
    let m ← place m r.idx r.dist (hashx (H.hash k))
    some (m, r.idx, true)

/-- Store an entry in a bucket of the table. -/
def store (m : Map κ ν) (i : Nat) (e : κ × ν) : Option (Map κ ν) :=
  if i < m.table.length then some { m with table := m.table.set i (some e) } else none

/-- hmap.h:471-475, the loop of `_reserve`: insert the entries of the old arrays from bucket `i`. -/
def rehash (H : Hasher κ) (old : Map κ ν) : Nat → Nat → Map κ ν → Option (Map κ ν)
  | 0, _, m => some m
  | f + 1, i, m => do
    let mt ← old.metas[i]?
    if mt.dist ≠ 0 then do
      let c ← old.table[i]?
      let e ← c
      let (m, ref, _) ← bucketInsert H m e.1
      let m ← store m ref e
      rehash H old f (i + 1) m
    else rehash H old f (i + 1) m

/-- hmap.h:459-468: fresh arrays. -/
def fresh (size n : Nat) : Map κ ν where
  table := List.replicate n none
  metas := List.replicate n ⟨0, 0⟩ ++ [⟨0, 1023⟩]
  size := size
  bc := n

/-- hmap.h:451-481 `_reserve`; `ok`: both allocations succeed. -/
def reserve (ok : Bool) (H : Hasher κ) (newcap : Nat) (m : Map κ ν) : Option (Map κ ν × Bool) :=
  if newcap < m.size ∨ bucketsFor newcap = m.bc then some (m, true)
  else if ok then do
    let m' ← rehash H m m.bc 0 (fresh m.size (bucketsFor newcap))
    some (m', true)
  else some (m, false)

/-- hmap.h:108 `_init` (also `{0}`). -/
def init : Map κ ν := ⟨[], [], 0, 0⟩

/-- hmap.h:315-319 `_with_capacity`. -/
def withCapacity (ok : Bool) (H : Hasher κ) (cap : Nat) : Option (Map κ ν) := do
  let (m, _) ← reserve ok H cap init
  some m

/-- hmap.h:97 `_shrink_to_fit`. -/
def shrink (ok : Bool) (H : Hasher κ) (m : Map κ ν) : Option (Map κ ν × Bool) := reserve ok H m.size m

/-- hmap.h:118-120: growth before an insertion. -/
def grow (ok : Bool) (H : Hasher κ) (m : Map κ ν) : Option (Map κ ν × Bool) :=
  if m.size ≥ capacity m.bc then reserve ok H (m.size * 3 / 2 + 2) m else some (m, true)

/-- hmap.h:116-125 `_insert_entry_`: the map, the bucket (`none`: NULL), whether it is new. -/
def insertEntry (ok : Bool) (H : Hasher κ) (m : Map κ ν) (k : κ) : Option (Map κ ν × Option Nat × Bool) := do
  let (m, fine) ← grow ok H m
  if fine then do
    let (m, ref, ins) ← bucketInsert H m k
    some ({ m with size := m.size + (if ins then 1 else 0) }, some ref, ins)
  else some (m, none, false)

/-- What an operation destroys (`i_keydrop`, `i_valdrop`). -/
inductive Own (κ ν : Type) where
  | key (k : κ)
  | val (v : ν)
deriving DecidableEq

/-- hmap.h:179-182 `_value_drop`. -/
def valueDrop (e : κ × ν) : List (Own κ ν) := [.key e.1, .val e.2]

/-- Result of an insertion: the map, the bucket of the entry (`none`: NULL), whether it is new, and
what was destroyed. -/
structure Ins (κ ν : Type) where
  map : Map κ ν
  ref : Option Nat
  inserted : Bool
  dropped : List (Own κ ν)

/-- hmap.h:195-203 `_insert`, 205-212 `_push`. -/
def insert (ok : Bool) (H : Hasher κ) (m : Map κ ν) (k : κ) (v : ν) : Option (Ins κ ν) := do
  let (m, ref, ins) ← insertEntry ok H m k
  if ins then do
    let r ← ref
    let m ← store m r (k, v)
    some ⟨m, ref, true, []⟩
  else some ⟨m, ref, false, [.key k, .val v]⟩

/-- hmap.h:160-168 `_emplace`: the entry is made from the raw arguments only if it is new. -/
def emplace (ok : Bool) (H : Hasher κ) (m : Map κ ν) (k : κ) (v : ν) : Option (Ins κ ν) := do
  let (m, ref, ins) ← insertEntry ok H m k
  if ins then do
    let r ← ref
    let m ← store m r (k, v)
    some ⟨m, ref, true, []⟩
  else some ⟨m, ref, false, []⟩

/-- hmap.h:347-357 `_insert_or_assign`. -/
def insertOrAssign (ok : Bool) (H : Hasher κ) (m : Map κ ν) (k : κ) (v : ν) : Option (Ins κ ν) := do
  let (m, ref, ins) ← insertEntry ok H m k
  match ref with
  | none => some ⟨m, none, false, [.key k, .val v]⟩
  | some r =>
    if ins then do
      let m ← store m r (k, v)
      some ⟨m, ref, true, []⟩
    else do
      let c ← m.table[r]?
      let e ← c
      let m ← store m r (e.1, v)
      some ⟨m, ref, false, [.key k, .val e.2]⟩

/-- hmap.h:360-371 `_emplace_or_assign` (`_put`, 214-222). -/
def emplaceOrAssign (ok : Bool) (H : Hasher κ) (m : Map κ ν) (k : κ) (v : ν) : Option (Ins κ ν) := do
  let (m, ref, ins) ← insertEntry ok H m k
  match ref with
  | none => some ⟨m, none, false, []⟩
  | some r =>
    if ins then do
      let m ← store m r (k, v)
      some ⟨m, ref, true, []⟩
    else do
      let c ← m.table[r]?
      let e ← c
      let m ← store m r (e.1, v)
      some ⟨m, ref, false, [.val e.2]⟩

/-- hmap.h:224-233 `_put_n` for maps (`_from_n`, 235-236); for sets `_emplace` is called, which
does the same to a set. -/
def putN (H : Hasher κ) : List (κ × ν) → Map κ ν → Option (Map κ ν × List (Own κ ν))
  | [], m => some (m, [])
  | e :: es, m => do
    let r ← emplaceOrAssign true H m e.1 e.2
    let (m, ds) ← putN H es r.map
    some (m, r.dropped ++ ds)

/-! ### queries -/

/-- hmap.h:259-262 `_get`: the bucket, `none` for NULL. -/
def getRef (H : Hasher κ) (m : Map κ ν) (k : κ) : Option (Option Nat) :=
  if m.size ≠ 0 then do
    let r ← lookup H m k
    some (if r.found then some r.idx else none)
  else some none

/-- hmap.h:259-262 `_get`: the entry found. -/
def get (H : Hasher κ) (m : Map κ ν) (k : κ) : Option (Option (κ × ν)) := do
  let r ← getRef H m k
  match r with
  | none => some none
  | some i => do
    let c ← m.table[i]?
    let e ← c
    some (some e)

/-- hmap.h:101-102 `_contains`. -/
def contains (H : Hasher κ) (m : Map κ ν) (k : κ) : Option Bool := do
  let r ← getRef H m k
  some r.isSome

/-- hmap.h:133-137 `_at`: the value; a missing key fails `c_assert`. -/
def at' (H : Hasher κ) (m : Map κ ν) (k : κ) : Option ν := do
  let r ← lookup H m k
  if r.found then do
    let c ← m.table[r.idx]?
    let e ← c
    some e.2
  else none

/-- hmap.h:139-140 `_at_mut`, after which the caller assigns through the pointer. -/
def setAt (H : Hasher κ) (m : Map κ ν) (k : κ) (v : ν) : Option (Map κ ν) := do
  let r ← lookup H m k
  if r.found then do
    let c ← m.table[r.idx]?
    let e ← c
    store m r.idx (e.1, v)
  else none

/-! ### erasing -/

/-- hmap.h:491-499, the loop of `_erase_entry`: the arrays and the bucket left free. -/
def shiftBack (mask : Nat) : Nat → Nat → List Meta → List (Option (κ × ν)) →
    Option (Nat × List Meta × List (Option (κ × ν)))
  | 0, _, _, _ => none
  | f + 1, i, metas, table => do
    let j := (i + 1) &&& mask
    let mt ← metas[j]?
    if mt.dist < 2 then some (i, metas, table)
    else do
      let d ← table[j]?
      shiftBack mask f j (metas.set i ⟨mt.hashx, mt.dist - 1⟩) (table.set i d)

/-- hmap.h:483-502 `_erase_entry`: the map and what was destroyed. -/
def eraseEntry (m : Map κ ν) (pos : Nat) : Option (Map κ ν × List (Own κ ν)) := do
  let c ← m.table[pos]?
  let e ← c
  let (i, metas, table) ← shiftBack (m.bc - 1) m.bc pos m.metas m.table
  let mt ← metas[i]?
  some (⟨table, metas.set i ⟨mt.hashx, 0⟩, m.size - 1, m.bc⟩, valueDrop e)

/-- hmap.h:268-274 `_erase`: the map, the returned number, and what was destroyed. -/
def erase (H : Hasher κ) (m : Map κ ν) (k : κ) : Option (Map κ ν × Nat × List (Own κ ν)) := do
  let r ← getRef H m k
  match r with
  | none => some (m, 0, [])
  | some i => do
    let (m, ds) ← eraseEntry m i
    some (m, 1, ds)

/-- hmap.h:321-329 `_wipe_`: the loop from bucket `i`. -/
def wipeLoop (m : Map κ ν) : Nat → Nat → Option (List (Own κ ν))
  | 0, _ => some []
  | f + 1, i => do
    let mt ← m.metas[i]?
    if mt.dist ≠ 0 then do
      let c ← m.table[i]?
      let e ← c
      let ds ← wipeLoop m f (i + 1)
      some (valueDrop e ++ ds)
    else wipeLoop m f (i + 1)

/-- hmap.h:321-329 `_wipe_`. -/
def wipe (m : Map κ ν) : Option (List (Own κ ν)) := if m.size = 0 then some [] else wipeLoop m m.bc 0

/-- hmap.h:331-338 `_drop`: what is destroyed (the arrays are freed). -/
def drop (m : Map κ ν) : Option (List (Own κ ν)) := if m.bc > 0 then wipe m else some []

/-- hmap.h:340-344 `_clear`. The `memset` covers all buckets but not the end mark. -/
def clear (m : Map κ ν) : Option (Map κ ν × List (Own κ ν)) := do
  let ds ← wipe m
  some (⟨m.table, List.replicate m.bc ⟨0, 0⟩ ++ m.metas.drop m.bc, 0, m.bc⟩, ds)

/-- hmap.h:427-448 `_clone`; `ok`: both allocations succeed. Only used buckets are copied. The size
is kept in any case. -/
def clone (ok : Bool) (m : Map κ ν) : Map κ ν :=
  if m.bc ≠ 0 then
    if ok then
      { m with table := List.zipWith (fun (mt : Meta) c => if mt.dist ≠ 0 then c else none) (m.metas.take m.bc) m.table }
    else ⟨[], [], m.size, 0⟩
  else m

/-! ### iteration: an iterator is the bucket it is at, `none` at the end -/

/-- hmap.h:240, 301-302: the first bucket from `i` whose `dist` is not 0. -/
def scan (metas : List Meta) : Nat → Nat → Option Nat
  | 0, _ => none
  | f + 1, i => do
    let mt ← metas[i]?
    if mt.dist = 0 then scan metas f (i + 1) else some i

/-- hmap.h:241, 303. -/
def stop (bc i : Nat) : Option Nat := if i = bc then none else some i

/-- hmap.h:297-305 `_begin`. -/
def begin' (m : Map κ ν) : Option (Option Nat) :=
  if m.bc = 0 then some none
  else do
    let i ← scan m.metas (m.bc + 1) 0
    some (stop m.bc i)

/-- hmap.h:239-242 `_next`. -/
def next (m : Map κ ν) (i : Nat) : Option (Option Nat) := do
  let i ← scan m.metas (m.bc + 1) (i + 1)
  some (stop m.bc i)

/-- hmap.h:244-247 `_advance`. -/
def advance (m : Map κ ν) : Nat → Option Nat → Option (Option Nat)
  | _, none => some none
  | 0, it => some it
  | n + 1, some i => do
    let it ← next m i
    advance m n it

/-- `c_each(i, hmap, m)`, common.h:164-165: the entries visited (`none`: does not end). -/
def eachLoop (m : Map κ ν) : Nat → Option Nat → Option (List (κ × ν))
  | _, none => some []
  | 0, some _ => none
  | f + 1, some i => do
    let c ← m.table[i]?
    let e ← c
    let it ← next m i
    let es ← eachLoop m f it
    some (e :: es)

/-- `c_each(i, hmap, m)`. -/
def each (m : Map κ ν) : Option (List (κ × ν)) := do
  let it ← begin' m
  eachLoop m m.bc it

/-- hmap.h:276-282 `_erase_at`: the iterator, the map, and what was destroyed. -/
def eraseAt (m : Map κ ν) (i : Nat) : Option (Option Nat × Map κ ν × List (Own κ ν)) := do
  let (m, ds) ← eraseEntry m i
  let mt ← m.metas[i]?
  if mt.dist = 0 then do
    let it ← next m i
    some (it, m, ds)
  else some (some i, m, ds)

/-- A loop over the map that erases some of the entries it visits:
`for (it = begin(m); it.ref; ) if (sel) it = erase_at(m, it); else next(&it);` — `sel n e` is the
decision at the `n`-th visit, of entry `e`. Result: the entries visited and the map. -/
def sweep (sel : Nat → κ × ν → Bool) : Nat → Nat → Option Nat → Map κ ν → Option (List (κ × ν) × Map κ ν)
  | _, _, none, m => some ([], m)
  | 0, _, some _, _ => none
  | f + 1, n, some i, m => do
    let c ← m.table[i]?
    let e ← c
    if sel n e then do
      let (it, m, _) ← eraseAt m i
      let (es, m) ← sweep sel f (n + 1) it m
      some (e :: es, m)
    else do
      let it ← next m i
      let (es, m) ← sweep sel f (n + 1) it m
      some (e :: es, m)

/-- hmap.h:286-290, the loop of `_eq`. -/
def eqLoop (H : Hasher κ) (m o : Map κ ν) : Nat → Option Nat → Option Bool
  | _, none => some true
  | 0, some _ => none
  | f + 1, some i => do
    let c ← m.table[i]?
    let e ← c
    let b ← contains H o e.1
    if b then do
      let it ← next m i
      eqLoop H m o f it
    else some false

/-- hmap.h:284-292 `_eq`. -/
def eq (H : Hasher κ) (m o : Map κ ν) : Option Bool :=
  if m.size ≠ o.size then some false
  else do
    let it ← begin' m
    eqLoop H m o m.bc it

end Verif.Hmap
