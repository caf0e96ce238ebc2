import Verif.Smap.Model
/-
Specification of sorted maps, independent of the tree: a finite map is the list of its entries in
strictly ascending order of the keys.
-/
namespace Verif.Smap
variable {κ ν : Type}

/-- A comparison function that describes a total preorder by the sign of its result. -/
structure Lawful (cmp : κ → κ → Int) : Prop where
  anti : ∀ a b, cmp a b ≤ 0 ↔ 0 ≤ cmp b a
  trans : ∀ a b c, cmp a b ≤ 0 → cmp b c ≤ 0 → cmp a c ≤ 0

namespace Spec

/-- The entries in ascending order. -/
abbrev FMap (κ ν : Type) := List (κ × ν)

/-- Strictly ascending keys. -/
def Ascending (cmp : κ → κ → Int) (M : FMap κ ν) : Prop := M.Pairwise fun a b => cmp a.1 b.1 < 0

def find (cmp : κ → κ → Int) (k : κ) (M : FMap κ ν) : Option (κ × ν) := M.find? fun e => cmp e.1 k == 0

def below (cmp : κ → κ → Int) (k : κ) (M : FMap κ ν) : FMap κ ν := M.filter fun e => cmp e.1 k < 0

def above (cmp : κ → κ → Int) (k : κ) (M : FMap κ ν) : FMap κ ν := M.filter fun e => 0 < cmp e.1 k

/-- The entries whose key is not less than `k`. -/
def from' (cmp : κ → κ → Int) (k : κ) (M : FMap κ ν) : FMap κ ν := M.filter fun e => 0 ≤ cmp e.1 k

/-- Add a key that is not there. -/
def insertNew (cmp : κ → κ → Int) (k : κ) (v : ν) (M : FMap κ ν) : FMap κ ν := below cmp k M ++ (k, v) :: above cmp k M

/-- Replace the value of the key, keeping the key. -/
def assign (cmp : κ → κ → Int) (k : κ) (v : ν) (M : FMap κ ν) : FMap κ ν :=
  M.map fun e => if cmp e.1 k = 0 then (e.1, v) else e

def remove (cmp : κ → κ → Int) (k : κ) (M : FMap κ ν) : FMap κ ν := M.filter fun e => cmp e.1 k != 0

/-- Add the key unless it is there. -/
def add (cmp : κ → κ → Int) (k : κ) (v : ν) (M : FMap κ ν) : FMap κ ν :=
  if (find cmp k M).isSome then M else insertNew cmp k v M

/-- Add the key or replace its value. -/
def put (cmp : κ → κ → Int) (k : κ) (v : ν) (M : FMap κ ν) : FMap κ ν :=
  if (find cmp k M).isSome then assign cmp k v M else insertNew cmp k v M

/-- Put several entries in turn. -/
def putAll (cmp : κ → κ → Int) (es : List (κ × ν)) (M : FMap κ ν) : FMap κ ν :=
  es.foldl (fun M e => put cmp e.1 e.2 M) M

/-- The entry an iterator refers to. -/
def entryOf (m : Map κ ν) (it : Iter) : Option (κ × ν) := it.ref.bind fun i => load m.nodes i

/-- Iterators obtained from the map as it is. -/
inductive Got (cmp : κ → κ → Int) (m : Map κ ν) : Iter → Prop
  | begin' (it : Iter) : Smap.begin' m = some it → Got cmp m it
  | next (it it' : Iter) : Got cmp m it → it.ref.isSome → Smap.next m it = some it' → Got cmp m it'
  | find (k : κ) (it : Iter) : Smap.find cmp m k = some it → Got cmp m it
  | lowerBound (k : κ) (it : Iter) : Smap.lowerBound cmp m k = some it → Got cmp m it

/-- The operations that change a map. `inl` says whether raw keys refer to the key objects they are
made from. -/
inductive Op (κ ν : Type) where
  | insert (k : κ) (v : ν)
  | emplace (k : κ) (v : ν)
  | insertOrAssign (k : κ) (v : ν)
  | emplaceOrAssign (k : κ) (v : ν)
  | setAt (k : κ) (v : ν)
  | putN (es : List (κ × ν))
  | erase (k : κ)
  | eraseAt (inl : Bool) (it : Iter)
  | eraseRange (inl : Bool) (it1 it2 : Iter)
  | reserve (ok : Bool) (n : Nat)
  | shrink
  | clear
  | clone

/-- The call made (with an allocator that succeeds, except for `reserve`). -/
def run [DecidableEq κ] (cmp : κ → κ → Int) (m : Map κ ν) : Op κ ν → Option (Map κ ν)
  | .insert k v => (Smap.insert cmp true m k v).map (·.map)
  | .emplace k v => (Smap.emplace cmp true m k v).map (·.map)
  | .insertOrAssign k v => (Smap.insertOrAssign cmp true m k v).map (·.map)
  | .emplaceOrAssign k v => (Smap.emplaceOrAssign cmp true m k v).map (·.map)
  | .setAt k v => Smap.setAt cmp m k v
  | .putN es => (Smap.putN cmp es m).map (·.1)
  | .erase k => (Smap.erase cmp m k).map (·.1)
  | .eraseAt inl it => (Smap.eraseAt cmp inl m it).map (·.2.1)
  | .eraseRange inl it1 it2 => (Smap.eraseRange cmp inl m it1 it2).map (·.2.1)
  | .reserve ok n => (Smap.reserve ok n m).map (·.1)
  | .shrink => Smap.shrink true m
  | .clear => (Smap.clear m).map (·.1)
  | .clone => Smap.clone true m

/-- The preconditions: growth is computed without overflow; the key is there for `at_mut`; iterators
are valid and in order; for `erase_range` up to an entry, raw keys do not refer to key objects; for
`clone` and `shrink_to_fit`, the map uses all nodes it ever used. -/
def valid (cmp : κ → κ → Int) (m : Map κ ν) (M : FMap κ ν) : Op κ ν → Prop
  | .insert _ _ | .emplace _ _ | .insertOrAssign _ _ | .emplaceOrAssign _ _ => M.length * 3 < 2 ^ 31
  | .setAt k _ => (find cmp k M).isSome
  | .putN es => (M.length + es.length) * 3 < 2 ^ 31
  | .eraseAt _ it => Got cmp m it ∧ (entryOf m it).isSome
  | .eraseRange inl it1 it2 => Got cmp m it1 ∧ Got cmp m it2 ∧
      match entryOf m it1, entryOf m it2 with
      | _, none => True
      | some e1, some e2 => inl = false ∧ cmp e1.1 e2.1 ≤ 0
      | none, some _ => False
  | .reserve _ n => n < 2 ^ 31
  | .shrink | .clone => m.head = m.size
  | _ => True

/-- The finite map after an operation. -/
def after (cmp : κ → κ → Int) (m : Map κ ν) (M : FMap κ ν) : Op κ ν → FMap κ ν
  | .insert k v | .emplace k v => add cmp k v M
  | .insertOrAssign k v | .emplaceOrAssign k v | .setAt k v => put cmp k v M
  | .putN es => putAll cmp es M
  | .erase k => remove cmp k M
  | .eraseAt _ it => match entryOf m it with
    | some e => remove cmp e.1 M
    | none => M
  | .eraseRange _ it1 it2 => match entryOf m it1, entryOf m it2 with
    | some e1, some e2 => below cmp e1.1 M ++ from' cmp e2.1 M
    | some e1, none => below cmp e1.1 M
    | none, _ => M
  | .clear => []
  | _ => M

/-- Maps reachable by some history, with the finite map they stand for. -/
inductive Reach [DecidableEq κ] (cmp : κ → κ → Int) : Map κ ν → FMap κ ν → Prop
  | init : Reach cmp Smap.init []
  | withCapacity (ok : Bool) (n : Nat) (m : Map κ ν) : n < 2 ^ 31 → Smap.withCapacity ok n = some m → Reach cmp m []
  | call (m m' : Map κ ν) (M : FMap κ ν) (op : Op κ ν) : Reach cmp m M → valid cmp m M op → run cmp m op = some m' →
      Reach cmp m' (after cmp m M op)

/-- Follow links from a node; `true` is right. -/
def follow (d : Buf (Node κ ν)) : Nat → List Bool → Option Nat
  | tn, [] => some tn
  | tn, dir :: dirs => do
    let n ← d.rd tn
    follow d (n.link dir) dirs

/-- What a map with these entries owns. -/
def owned (M : FMap κ ν) : List (Own κ ν) := M.flatMap fun e => [.key e.1, .val e.2]

end Spec
end Verif.Smap
