import Verif.Hmap.Model
/- Specification of hash maps as finite maps. -/
namespace Verif.Hmap.Spec
variable {κ ν : Type}

/-- What the key type has to provide: equality is an equivalence and equal keys have equal hashes. -/
structure Lawful (H : Hasher κ) : Prop where
  refl : ∀ a, H.eq a a = true
  symm : ∀ a b, H.eq a b = true → H.eq b a = true
  trans : ∀ a b c, H.eq a b = true → H.eq b c = true → H.eq a c = true
  hash : ∀ a b, H.eq a b = true → H.hash a = H.hash b

/-- The bucket a key hashes to. -/
def home (H : Hasher κ) (n : Nat) (k : κ) : Nat := (H.hash k).toNat % n

/-- The limit on clustering: in a table of `n` buckets, of the given home buckets at most
`len + 1022` lie in any `len` consecutive buckets (cyclically). Up to 1023 keys always satisfy it. -/
def Spread (n : Nat) (hs : List Nat) : Prop :=
  ∀ s < n, ∀ len < n + 1, 1 ≤ len → hs.countP (fun h => decide ((h + n - s) % n < len)) ≤ len + 1022

instance (n : Nat) (hs : List Nat) : Decidable (Spread n hs) := by unfold Spread; infer_instance

/-- A finite map: its entries, in any order. -/
abbrev FMap (κ ν : Type) := List (κ × ν)

/-- The entry of a key. -/
def find (H : Hasher κ) (M : FMap κ ν) (k : κ) : Option (κ × ν) := M.find? fun e => H.eq e.1 k

/-- Insert unless the key is present. -/
def insertNew (H : Hasher κ) (M : FMap κ ν) (k : κ) (v : ν) : FMap κ ν :=
  if (find H M k).isSome then M else (k, v) :: M

/-- Insert, or replace the value of a present key. -/
def assign (H : Hasher κ) (M : FMap κ ν) (k : κ) (v : ν) : FMap κ ν :=
  if (find H M k).isSome then M.map fun e => if H.eq e.1 k then (e.1, v) else e else (k, v) :: M

/-- Remove a key. -/
def remove (H : Hasher κ) (M : FMap κ ν) (k : κ) : FMap κ ν := M.filter fun e => !H.eq e.1 k

/-- The operations that change a map. -/
inductive Op (κ ν : Type) where
  | insert (k : κ) (v : ν)
  | emplace (k : κ) (v : ν)
  | insertOrAssign (k : κ) (v : ν)
  | emplaceOrAssign (k : κ) (v : ν)
  | setAt (k : κ) (v : ν)
  | erase (k : κ)
  | eraseAt (pos : Nat)
  | reserve (n : Nat)
  | shrink
  | clear
  | clone

/-- The call made (with an allocator that succeeds). -/
def run (H : Hasher κ) (m : Map κ ν) : Op κ ν → Option (Map κ ν)
  | .insert k v => (Hmap.insert true H m k v).map (·.map)
  | .emplace k v => (Hmap.emplace true H m k v).map (·.map)
  | .insertOrAssign k v => (Hmap.insertOrAssign true H m k v).map (·.map)
  | .emplaceOrAssign k v => (Hmap.emplaceOrAssign true H m k v).map (·.map)
  | .setAt k v => Hmap.setAt H m k v
  | .erase k => (Hmap.erase H m k).map (·.1)
  | .eraseAt pos => (Hmap.eraseAt m pos).map (·.2.1)
  | .reserve n => (Hmap.reserve true H n m).map (·.1)
  | .shrink => (Hmap.shrink true H m).map (·.1)
  | .clear => (Hmap.clear m).map (·.1)
  | .clone => some (Hmap.clone true m)

/-- The number of buckets after the growth check of an insertion. -/
def buckets (m : Map κ ν) : Nat :=
  if m.size ≥ capacity m.bc then bucketsFor (m.size * 3 / 2 + 2) else m.bc

/-- The entry an iterator is at. -/
def entryAt (m : Map κ ν) (pos : Nat) : Option (κ × ν) := do
  let mt ← m.metas[pos]?
  if mt.dist ≠ 0 then (m.table[pos]?).join else none

/-- The preconditions: sizes below 2^58, the limit on clustering for the resulting keys and bucket
count, a present key for `at_mut`, an iterator at an entry for `erase_at`. -/
def valid (H : Hasher κ) (m : Map κ ν) (M : FMap κ ν) : Op κ ν → Prop
  | .insert k v | .emplace k v =>
    M.length < 2 ^ 58 ∧ Spread (buckets m) ((insertNew H M k v).map fun e => home H (buckets m) e.1)
  | .insertOrAssign k v | .emplaceOrAssign k v =>
    M.length < 2 ^ 58 ∧ Spread (buckets m) ((assign H M k v).map fun e => home H (buckets m) e.1)
  | .setAt k _ => (find H M k).isSome
  | .reserve n => n < 2 ^ 59 ∧ Spread (bucketsFor n) (M.map fun e => home H (bucketsFor n) e.1)
  | .shrink => M.length < 2 ^ 58 ∧ Spread (bucketsFor M.length) (M.map fun e => home H (bucketsFor M.length) e.1)
  | .eraseAt pos => (entryAt m pos).isSome
  | _ => True

/-- The finite map after an operation. -/
def after (H : Hasher κ) (m : Map κ ν) (M : FMap κ ν) : Op κ ν → FMap κ ν
  | .insert k v | .emplace k v => insertNew H M k v
  | .insertOrAssign k v | .emplaceOrAssign k v | .setAt k v => assign H M k v
  | .erase k => remove H M k
  | .eraseAt pos => match entryAt m pos with
    | some e => remove H M e.1
    | none => M
  | .clear => []
  | _ => M

/-- Maps reachable by some history, with the finite map they stand for. -/
inductive Reach (H : Hasher κ) : Map κ ν → FMap κ ν → Prop
  | init : Reach H Hmap.init []
  | withCapacity (n : Nat) (m : Map κ ν) : n < 2 ^ 59 → withCapacity true H n = some m → Reach H m []
  | call (m m' : Map κ ν) (M : FMap κ ν) (op : Op κ ν) : Reach H m M → valid H m M op → run H m op = some m' →
      Reach H m' (after H m M op)

end Verif.Hmap.Spec
