import Verif.Base
/-
Model of the sorted map and set (AA tree), /repo/include/stc/smap.h (sset.h is the same code with the
key as the whole entry: take `ν = Unit`).

Nodes live in one array and refer to each other by index; index 0 is the null node. `none` is
undefined behaviour: an access outside the array, use of an indeterminate value, overflow of a fixed
stack, signed overflow, or a loop that does not end. Links and levels (`int32_t`, `int8_t`) are `Nat`;
the theorems bound them. Keys are compared by the function given with the type (`i_cmp`); conversion
between stored and raw keys is the identity, except in `eraseRange` where it matters.
-/
namespace Verif.Smap

/-- smap.h:84-88 `struct _m_node`; a value that was not written yet is `none`. -/
structure Node (κ ν : Type) where
  l : Nat
  r : Nat
  lvl : Nat
  val : Option (κ × ν)
deriving DecidableEq

/-- types.h:191-195. The array is empty when NULL; slots never written are `none`. -/
structure Map (κ ν : Type) where
  nodes : Buf (Node κ ν)
  root : Nat
  disp : Nat
  head : Nat
  size : Nat
  cap : Nat
deriving DecidableEq

variable {κ ν : Type}

/-- `d[tn].link[dir]`. -/
def Node.link (n : Node κ ν) (dir : Bool) : Nat := if dir then n.r else n.l

/-- `d[tn].link[dir] = x`. -/
def setLink (d : Buf (Node κ ν)) (tn : Nat) (dir : Bool) (x : Nat) : Option (Buf (Node κ ν)) := do
  let n ← d.rd tn
  d.wr tn (if dir then { n with r := x } else { n with l := x })

/-- smap.h:114 `_init`. -/
def init : Map κ ν := ⟨[], 0, 0, 0, 0, 0⟩

/-- smap.h:290-302 `_reserve`; `ok`: the allocation succeeds. -/
def reserve (ok : Bool) (cap : Nat) (m : Map κ ν) : Option (Map κ ν × Bool) :=
  if cap ≤ m.cap then some (m, false)
  else if 2 ^ 31 ≤ cap then none
  else if ok then do
    let d : Buf (Node κ ν) := m.nodes ++ List.replicate (cap + 1 - m.nodes.length) none
    let d ← d.wr 0 ⟨0, 0, 0, none⟩
    some ({ m with nodes := d, cap := cap }, true)
  else some (m, false)

/-- smap.h:127-131 `_with_capacity`. -/
def withCapacity (ok : Bool) (cap : Nat) : Option (Map κ ν) := do
  let (m, _) ← reserve ok cap init
  some m

/-- smap.h:329-332: a node that was never used; the growth `head*3/2 + 4` is computed in `int`. -/
def bump (ok : Bool) (m : Map κ ν) : Option (Map κ ν × Nat) :=
  if m.head = m.cap then
    if m.head * 3 < 2 ^ 31 then do
      let (m, b) ← reserve ok (m.head * 3 / 2 + 4) m
      if b then some ({ m with head := m.head + 1 }, m.head + 1) else some (m, 0)
    else none
  else some ({ m with head := m.head + 1 }, m.head + 1)

/-- smap.h:325-333: the node to use, 0 if there is no memory. -/
def pick (ok : Bool) (m : Map κ ν) : Option (Map κ ν × Nat) :=
  if m.disp ≠ 0 then do
    let n ← m.nodes.rd m.disp
    some ({ m with disp := n.r }, m.disp)
  else bump ok m

/-- smap.h:322-337 `_new_node_`. -/
def newNode (ok : Bool) (level : Nat) (m : Map κ ν) : Option (Map κ ν × Nat) := do
  let (m, tn) ← pick ok m
  if tn = 0 then some (m, 0)
  else do
    let d ← m.nodes.wr tn ⟨0, 0, level, none⟩
    some ({ m with nodes := d }, tn)

/-! ### rebalancing -/

/-- smap.h:397-406 `_skew_`. -/
def skew (d : Buf (Node κ ν)) (tn : Nat) : Option (Nat × Buf (Node κ ν)) :=
  if tn ≠ 0 then do
    let n ← d.rd tn
    let nl ← d.rd n.l
    if nl.lvl = n.lvl then do
      let tmp := n.l
      let nt ← d.rd tmp
      let d ← setLink d tn false nt.r
      let d ← setLink d tmp true tn
      some (tmp, d)
    else some (tn, d)
  else some (tn, d)

/-- smap.h:415 `++d[tn].level`. -/
def incLevel (d : Buf (Node κ ν)) (tn : Nat) : Option (Buf (Node κ ν)) := do
  let n ← d.rd tn
  d.wr tn { n with lvl := n.lvl + 1 }

/-- smap.h:408-418 `_split_`. -/
def split (d : Buf (Node κ ν)) (tn : Nat) : Option (Nat × Buf (Node κ ν)) := do
  let n ← d.rd tn
  let nr ← d.rd n.r
  let nrr ← d.rd nr.r
  if nrr.lvl = n.lvl then do
    let tmp := n.r
    let nt ← d.rd tmp
    let d ← setLink d tn true nt.l
    let d ← setLink d tmp false tn
    let d ← incLevel d tmp
    some (tmp, d)
  else some (tn, d)

/-! ### insertion -/

/-- Outcome of the search of `_insert_entry_i_`: the node with an equal key, or the path (last
node first) and the direction of the last step. -/
inductive Desc where
  | found (tx : Nat)
  | bottom (up : List Nat) (dir : Bool)
deriving DecidableEq

/-- smap.h:425-432. The stack `up[64]` overflows after 64 steps. -/
def descend (cmp : κ → κ → Int) (d : Buf (Node κ ν)) (k : κ) : Nat → Nat → List Nat → Bool → Option Desc
  | 0, _, _, _ => none
  | f + 1, tx, up, dir =>
    if tx ≠ 0 then do
      guard (up.length < 64)
      let n ← d.rd tx
      let e ← n.val
      let c := cmp e.1 k
      if c = 0 then some (.found tx)
      else descend cmp d k f (n.link (decide (c < 0))) (tx :: up) (decide (c < 0))
    else some (.bottom up dir)

/-- smap.h:441-449: rebalance along the path. -/
def ascend (d : Buf (Node κ ν)) : List Nat → Option (Nat × Buf (Node κ ν))
  | [] => none
  | [u] => do
    let (u, d) ← skew d u
    split d u
  | u :: p :: rest => do
    let n ← d.rd p
    let dir := n.r == u
    let (u, d) ← skew d u
    let (u, d) ← split d u
    let d ← setLink d p dir u
    ascend d (p :: rest)

/-- smap.h:438-449: link the new node `tx` and rebalance; the new root. -/
def linkNew (d : Buf (Node κ ν)) (tx : Nat) (up : List Nat) (dir : Bool) : Option (Nat × Buf (Node κ ν)) :=
  match up with
  | [] => some (tx, d)
  | u :: rest => do
    let d ← setLink d u dir tx
    ascend d (u :: rest)

/-- smap.h:420-459 `_insert_entry_i_`, `_insert_entry_`: the map, the node (`none`: NULL), whether
it is new. When there is no memory the root becomes 0. -/
def insertEntry (cmp : κ → κ → Int) (ok : Bool) (m : Map κ ν) (k : κ) : Option (Map κ ν × Option Nat × Bool) := do
  let r ← descend cmp m.nodes k 65 m.root [] false
  match r with
  | .found tx => some (m, some tx, false)
  | .bottom up dir => do
    let (m, tx) ← newNode ok 1 m
    if tx = 0 then some ({ m with root := 0 }, none, false)
    else do
      let (root, d) ← linkNew m.nodes tx up dir
      some ({ m with nodes := d, root := root, size := m.size + 1 }, some tx, true)

/-- What an operation destroys (`i_keydrop`, `i_valdrop`). -/
inductive Own (κ ν : Type) where
  | key (k : κ)
  | val (v : ν)
deriving DecidableEq

/-- smap.h:142-145 `_value_drop`. -/
def valueDrop (e : κ × ν) : List (Own κ ν) := [.key e.1, .val e.2]

/-- Write the entry of a node. -/
def store (m : Map κ ν) (i : Nat) (e : κ × ν) : Option (Map κ ν) := do
  let n ← m.nodes.rd i
  let d ← m.nodes.wr i { n with val := some e }
  some { m with nodes := d }

/-- The entry of a node. -/
def load (d : Buf (Node κ ν)) (i : Nat) : Option (κ × ν) := do
  let n ← d.rd i
  n.val

/-- Result of an insertion: the map, the node (`none`: NULL), whether it is new, and what was
destroyed. -/
structure Ins (κ ν : Type) where
  map : Map κ ν
  ref : Option Nat
  inserted : Bool
  dropped : List (Own κ ν)
deriving DecidableEq

/-- smap.h:218-226 `_insert`, 228-235 `_push`. -/
def insert (cmp : κ → κ → Int) (ok : Bool) (m : Map κ ν) (k : κ) (v : ν) : Option (Ins κ ν) := do
  let (m, ref, ins) ← insertEntry cmp ok m k
  if ins then do
    let r ← ref
    let m ← store m r (k, v)
    some ⟨m, ref, true, []⟩
  else some ⟨m, ref, false, [.key k, .val v]⟩

/-- smap.h:569-577 `_emplace`. -/
def emplace (cmp : κ → κ → Int) (ok : Bool) (m : Map κ ν) (k : κ) (v : ν) : Option (Ins κ ν) := do
  let (m, ref, ins) ← insertEntry cmp ok m k
  if ins then do
    let r ← ref
    let m ← store m r (k, v)
    some ⟨m, ref, true, []⟩
  else some ⟨m, ref, false, []⟩

/-- smap.h:340-350 `_insert_or_assign`. -/
def insertOrAssign (cmp : κ → κ → Int) (ok : Bool) (m : Map κ ν) (k : κ) (v : ν) : Option (Ins κ ν) := do
  let (m, ref, ins) ← insertEntry cmp ok m k
  match ref with
  | none => some ⟨m, none, false, [.key k, .val v]⟩
  | some r =>
    if ins then do
      let m ← store m r (k, v)
      some ⟨m, ref, true, []⟩
    else do
      let e ← load m.nodes r
      let m ← store m r (e.1, v)
      some ⟨m, ref, false, [.key k, .val e.2]⟩

/-- smap.h:353-364 `_emplace_or_assign` (`_put`, 238-244). -/
def emplaceOrAssign (cmp : κ → κ → Int) (ok : Bool) (m : Map κ ν) (k : κ) (v : ν) : Option (Ins κ ν) := do
  let (m, ref, ins) ← insertEntry cmp ok m k
  match ref with
  | none => some ⟨m, none, false, []⟩
  | some r =>
    if ins then do
      let m ← store m r (k, v)
      some ⟨m, ref, true, []⟩
    else do
      let e ← load m.nodes r
      let m ← store m r (e.1, v)
      some ⟨m, ref, false, [.val e.2]⟩

/-- smap.h:247-256 `_put_n` for maps, 258-259 `_from_n`. -/
def putN (cmp : κ → κ → Int) : List (κ × ν) → Map κ ν → Option (Map κ ν × List (Own κ ν))
  | [], m => some (m, [])
  | e :: es, m => do
    let r ← emplaceOrAssign cmp true m e.1 e.2
    let (m, ds) ← putN cmp es r.map
    some (m, r.dropped ++ ds)

/-! ### searching and iterating -/

/-- types.h:184-189: `ref` (node index, `none`: NULL), `_tn` (`none`: indeterminate) and the stack
`_st` of 36 entries, last pushed first. -/
structure Iter where
  ref : Option Nat
  tn : Option Nat
  st : List Nat
deriving DecidableEq

/-- smap.h:373-382, the loop of `_find_it`. -/
def findLoop (cmp : κ → κ → Int) (d : Buf (Node κ ν)) (k : κ) (tn0 : Option Nat) : Nat → Nat → List Nat → Option Iter
  | 0, _, _ => none
  | f + 1, tn, st =>
    if tn ≠ 0 then do
      let n ← d.rd tn
      let e ← n.val
      let c := cmp e.1 k
      if c < 0 then findLoop cmp d k tn0 f n.r st
      else if c > 0 then do
        guard (st.length < 36)
        findLoop cmp d k tn0 f n.l (tn :: st)
      else some ⟨some tn, some n.r, st⟩
    else some ⟨none, tn0, st⟩

/-- smap.h:368-383 `_find_it`; `tn0` is what `out->_tn` holds before. -/
def findIt (cmp : κ → κ → Int) (m : Map κ ν) (k : κ) (tn0 : Option Nat) : Option Iter :=
  findLoop cmp m.nodes k tn0 (m.nodes.length + 1) m.root []

/-- smap.h:118-119 `_find`. -/
def find (cmp : κ → κ → Int) (m : Map κ ν) (k : κ) : Option Iter := findIt cmp m k none

/-- smap.h:122-123 `_get`: the entry, `none` for NULL. -/
def get (cmp : κ → κ → Int) (m : Map κ ν) (k : κ) : Option (Option (κ × ν)) := do
  let it ← findIt cmp m k none
  match it.ref with
  | none => some none
  | some i => do
    let e ← load m.nodes i
    some (some e)

/-- smap.h:120-121 `_contains`. -/
def contains (cmp : κ → κ → Int) (m : Map κ ν) (k : κ) : Option Bool := do
  let it ← findIt cmp m k none
  some it.ref.isSome

/-- smap.h:186-187 `_at`: NULL is dereferenced for a missing key. -/
def at' (cmp : κ → κ → Int) (m : Map κ ν) (k : κ) : Option ν := do
  let it ← findIt cmp m k none
  let i ← it.ref
  let e ← load m.nodes i
  some e.2

/-- smap.h:189-190 `_at_mut`, after which the caller assigns through the pointer. -/
def setAt (cmp : κ → κ → Int) (m : Map κ ν) (k : κ) (v : ν) : Option (Map κ ν) := do
  let it ← findIt cmp m k none
  let i ← it.ref
  let e ← load m.nodes i
  store m i (e.1, v)

/-- smap.h:385-395 `_lower_bound`. -/
def lowerBound (cmp : κ → κ → Int) (m : Map κ ν) (k : κ) : Option Iter := do
  let it ← findIt cmp m k none
  match it.ref, it.st with
  | none, tn :: st => do
    let n ← m.nodes.rd tn
    some ⟨some tn, some n.r, st⟩
  | _, _ => some it

/-- smap.h:268-271: push the left spine. The stack overflows beyond 36. -/
def pushLeft (d : Buf (Node κ ν)) : Nat → Nat → List Nat → Option (List Nat)
  | 0, _, _ => none
  | f + 1, tn, st =>
    if tn ≠ 0 then do
      guard (st.length < 36)
      let n ← d.rd tn
      pushLeft d f n.l (tn :: st)
    else some st

/-- smap.h:264-277 `_next`. -/
def next (m : Map κ ν) (it : Iter) : Option Iter := do
  let tn ← it.tn
  if it.st ≠ [] ∨ tn ≠ 0 then do
    let st ← pushLeft m.nodes 37 tn it.st
    match st with
    | [] => none
    | s :: st => do
      let n ← m.nodes.rd s
      some ⟨some s, some n.r, st⟩
  else some { it with ref := none }

/-- smap.h:279-288 `_begin`. -/
def begin' (m : Map κ ν) : Option Iter :=
  if m.root ≠ 0 then next m ⟨none, some m.root, []⟩ else some ⟨none, some m.root, []⟩

/-- smap.h:199-203 `_advance`. -/
def advance (m : Map κ ν) : Nat → Iter → Option Iter
  | 0, it => some it
  | n + 1, it =>
    if it.ref.isSome then do
      let it ← next m it
      advance m n it
    else some it

/-- `c_each`/`c_each_n` style loop from an iterator to the end, common.h:164-165: the entries visited. -/
def eachFrom (m : Map κ ν) : Nat → Iter → Option (List (κ × ν))
  | f, it => match it.ref with
    | none => some []
    | some i => match f with
      | 0 => none
      | f + 1 => do
        let e ← load m.nodes i
        let it ← next m it
        let es ← eachFrom m f it
        some (e :: es)

/-- `c_each(i, smap, m)`. -/
def each (m : Map κ ν) : Option (List (κ × ν)) := do
  let it ← begin' m
  eachFrom m m.nodes.length it

/-- smap.h:304-311 `_front` (`dir = false`) and 313-320 `_back` (`dir = true`), the loop. -/
def outermost (d : Buf (Node κ ν)) (dir : Bool) : Nat → Nat → Option Nat
  | 0, _ => none
  | f + 1, tn => do
    let n ← d.rd tn
    if n.link dir ≠ 0 then outermost d dir f (n.link dir) else some tn

/-- smap.h:304-311 `_front`: the entry. -/
def front (m : Map κ ν) : Option (κ × ν) := do
  let i ← outermost m.nodes false (m.nodes.length + 1) m.root
  load m.nodes i

/-- smap.h:313-320 `_back`: the entry. -/
def back (m : Map κ ν) : Option (κ × ν) := do
  let i ← outermost m.nodes true (m.nodes.length + 1) m.root
  load m.nodes i

/-- smap.h:209-213, the loop of `_eq`. -/
def eqLoop (eq : κ → κ → Bool) (m o : Map κ ν) : Nat → Iter → Iter → Option Bool
  | f, i, j => match i.ref with
    | none => some true
    | some a => match f with
      | 0 => none
      | f + 1 => do
        let ea ← load m.nodes a
        let b ← j.ref
        let eb ← load o.nodes b
        if eq ea.1 eb.1 then do
          let i ← next m i
          let j ← next o j
          eqLoop eq m o f i j
        else some false

/-- smap.h:206-215 `_eq`. -/
def eq (eq : κ → κ → Bool) (m o : Map κ ν) : Option Bool :=
  if m.size ≠ o.size then some false
  else do
    let i ← begin' m
    let j ← begin' o
    eqLoop eq m o m.nodes.length i j

/-! ### erasing -/

/-- smap.h:490-491: decrease the level of `tn`, and of `tx` if it is higher. -/
def lower (d : Buf (Node κ ν)) (tn tx : Nat) : Option (Buf (Node κ ν)) := do
  let n ← d.rd tn
  let d ← d.wr tn { n with lvl := n.lvl - 1 }
  let x ← d.rd tx
  if x.lvl > n.lvl - 1 then d.wr tx { x with lvl := n.lvl - 1 } else some d

/-- smap.h:493: `tx = d[tn].link[1] = _skew_(d, d[tn].link[1])`. -/
def skewRight (d : Buf (Node κ ν)) (tn : Nat) : Option (Nat × Buf (Node κ ν)) := do
  let n ← d.rd tn
  let (tx, d) ← skew d n.r
  let d ← setLink d tn true tx
  some (tx, d)

/-- smap.h:496: `d[tn].link[1] = _split_(d, d[tn].link[1])`. -/
def splitRight (d : Buf (Node κ ν)) (tn : Nat) : Option (Buf (Node κ ν)) := do
  let n ← d.rd tn
  let (tx, d) ← split d n.r
  setLink d tn true tx

/-- smap.h:488-498: the end of `_erase_r_`. -/
def rebalance (d : Buf (Node κ ν)) (tn : Nat) : Option (Nat × Buf (Node κ ν)) := do
  let n ← d.rd tn
  let nl ← d.rd n.l
  let nx ← d.rd n.r
  if nl.lvl + 1 < n.lvl ∨ nx.lvl + 1 < n.lvl then do
    let d ← lower d tn n.r
    let (tn, d) ← skew d tn
    let (tx, d) ← skewRight d tn
    let (_, d) ← skewRight d tx
    let (tn, d) ← split d tn
    let d ← splitRight d tn
    some (tn, d)
  else some (tn, d)

/-- The state of `_erase_r_`: the subtree, the nodes, the list of free nodes, `*erased`, and what
was destroyed. -/
structure Er (κ ν : Type) where
  tn : Nat
  d : Buf (Node κ ν)
  disp : Nat
  erased : Nat
  dropped : List (Own κ ν)

/-- smap.h:461-499 `_erase_r_`. -/
def eraseR (cmp : κ → κ → Int) : Nat → Buf (Node κ ν) → Nat → Nat → κ → Nat → Option (Er κ ν)
  | 0, _, _, _, _, _ => none
  | f + 1, d, disp, tn, k, erased =>
    if tn = 0 then some ⟨0, d, disp, erased, []⟩
    else do
      let n ← d.rd tn
      let e ← n.val
      let c := cmp e.1 k
      if c ≠ 0 then do
        let r ← eraseR cmp f d disp (n.link (decide (c < 0))) k erased
        let d ← setLink r.d tn (decide (c < 0)) r.tn
        let (tn, d) ← rebalance d tn
        some ⟨tn, d, r.disp, r.erased, r.dropped⟩
      else if n.l ≠ 0 ∧ n.r ≠ 0 then do
        let tx ← outermost d true (d.length + 1) n.l
        let ex ← load d tx
        let d ← d.wr tn { n with val := some ex }
        let r ← eraseR cmp f d disp n.l ex.1 (erased + 1)
        let d ← setLink r.d tn false r.tn
        let (tn, d) ← rebalance d tn
        some ⟨tn, d, r.disp, r.erased, (if erased = 0 then valueDrop e else []) ++ r.dropped⟩
      else do
        let d ← d.wr tn { n with r := disp }
        let (tn', d) ← rebalance d (n.link (n.l == 0))
        some ⟨tn', d, tn, erased + 1, if erased = 0 then valueDrop e else []⟩

/-- smap.h:501-510 `_erase`: the map, the returned number, and what was destroyed. When nothing is
found the array may still have been written to (with the same values). -/
def erase (cmp : κ → κ → Int) (m : Map κ ν) (k : κ) : Option (Map κ ν × Nat × List (Own κ ν)) := do
  let r ← eraseR cmp (m.nodes.length + 1) m.nodes m.disp m.root k 0
  if r.erased = 0 then some ({ m with nodes := r.d, disp := r.disp }, 0, r.dropped)
  else some ({ m with nodes := r.d, disp := r.disp, root := r.tn, size := m.size - 1 }, 1, r.dropped)

/-- smap.h:512-523 `_erase_at`. `inl` says that a raw key refers to the key object it was made from
(as for short `cstr` keys): then `nxt` is whatever the node of the next entry holds after the erase. -/
def eraseAt (cmp : κ → κ → Int) (inl : Bool) (m : Map κ ν) (it : Iter) : Option (Iter × Map κ ν × List (Own κ ν)) := do
  let i ← it.ref
  let e ← load m.nodes i
  let it ← next m it
  match it.ref with
  | some j => do
    let e' ← load m.nodes j
    let (m, _, ds) ← erase cmp m e.1
    let e'' ← load m.nodes j
    let it ← findIt cmp m (if inl then e''.1 else e'.1) it.tn
    some (it, m, ds)
  | none => do
    let (m, _, ds) ← erase cmp m e.1
    some (it, m, ds)

/-- smap.h:528-530: erase up to the end. -/
def eraseToEnd (cmp : κ → κ → Int) (inl : Bool) : Nat → Map κ ν → Iter → Option (Iter × Map κ ν × List (Own κ ν))
  | f, m, it => match it.ref with
    | none => some (it, m, [])
    | some _ => match f with
      | 0 => none
      | f + 1 => do
        let (it, m, ds) ← eraseAt cmp inl m it
        let (it, m, ds') ← eraseToEnd cmp inl f m it
        some (it, m, ds ++ ds')

/-- smap.h:534-542. `k1`, `k2` are bitwise copies of the keys. `inl` as above: then `r1` refers to the
variable `k1`, and changes with it. -/
def eraseRangeLoop [DecidableEq κ] (cmp : κ → κ → Int) (inl : Bool) (k2 : κ) :
    Nat → Map κ ν → Iter → κ → Option (Iter × Map κ ν × List (Own κ ν))
  | 0, _, _, _ => none
  | f + 1, m, it1, k1 =>
    if k1 = k2 then some (it1, m, [])
    else do
      let it1 ← next m it1
      let i ← it1.ref
      let e ← load m.nodes i
      let (m, _, ds) ← erase cmp m (if inl then e.1 else k1)
      let it1 ← findIt cmp m e.1 it1.tn
      let (it, m, ds') ← eraseRangeLoop cmp inl k2 f m it1 e.1
      some (it, m, ds ++ ds')

/-- smap.h:525-543 `_erase_range`. -/
def eraseRange [DecidableEq κ] (cmp : κ → κ → Int) (inl : Bool) (m : Map κ ν) (it1 it2 : Iter) :
    Option (Iter × Map κ ν × List (Own κ ν)) :=
  match it2.ref with
  | none => eraseToEnd cmp inl (m.nodes.length + 1) m it1
  | some j => do
    let i ← it1.ref
    let e1 ← load m.nodes i
    let e2 ← load m.nodes j
    eraseRangeLoop cmp inl e2.1 (m.nodes.length + 1) m it1 e1.1

/-! ### cloning and dropping -/

/-- smap.h:546-555 `_clone_r_`. -/
def cloneR (ok : Bool) (src : Buf (Node κ ν)) : Nat → Map κ ν → Nat → Option (Nat × Map κ ν)
  | 0, _, _ => none
  | f + 1, m, sn =>
    if sn = 0 then some (0, m)
    else do
      let s ← src.rd sn
      let (m, tn) ← newNode ok s.lvl m
      let e ← s.val
      let m ← store m tn e
      let (tx, m) ← cloneR ok src f m s.l
      let d ← setLink m.nodes tn false tx
      let (tx, m) ← cloneR ok src f { m with nodes := d } s.r
      let d ← setLink m.nodes tn true tx
      some (tn, { m with nodes := d })

/-- smap.h:557-565 `_clone`: `head` and `size` are those of the original. -/
def clone (ok : Bool) (m : Map κ ν) : Option (Map κ ν) := do
  let c ← withCapacity ok m.size
  let (root, c) ← cloneR ok m.nodes (m.nodes.length + 1) c m.root
  some { m with root := root, nodes := c.nodes, disp := c.disp, cap := c.cap }

/-- smap.h:172-175 `_shrink_to_fit` (what the dropped original destroys is not counted: the clone
owns copies). -/
def shrink (ok : Bool) (m : Map κ ν) : Option (Map κ ν) := clone ok m

/-- smap.h:580-587 `_drop_r_`: what is destroyed. -/
def dropR (d : Buf (Node κ ν)) : Nat → Nat → Option (List (Own κ ν))
  | 0, _ => none
  | f + 1, tn =>
    if tn ≠ 0 then do
      let n ← d.rd tn
      let a ← dropR d f n.l
      let b ← dropR d f n.r
      let e ← n.val
      some (a ++ b ++ valueDrop e)
    else some []

/-- smap.h:589-596 `_drop`. -/
def drop (m : Map κ ν) : Option (List (Own κ ν)) :=
  if m.cap ≠ 0 then dropR m.nodes (m.nodes.length + 1) m.root else some []

/-- smap.h:133-134 `_clear`. -/
def clear (m : Map κ ν) : Option (Map κ ν × List (Own κ ν)) := do
  let ds ← drop m
  some (init, ds)

end Verif.Smap
