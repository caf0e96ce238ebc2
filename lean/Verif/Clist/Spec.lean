import Verif.Clist.Model
import Verif.Sort.Spec
/- What list calls mean for the sequences a program sees by iterating. -/
namespace Verif.Clist.Spec
variable {α : Type}

/-- What iteration over list `s` shows. -/
def contents (m : Mem α) (s : Nat) : List α := (each (m.lst s)).getD []

/-- Caller preconditions in terms of the sequences. Allocations must succeed: the functions
dereference the result of `malloc` unchecked. -/
def valid (L : Nat → List α) : Op α → Prop
  | .pushBack _ w _ | .pushFront _ w _ | .insertEnd _ w _ => w.isSome
  | .putN _ w _ | .copy _ _ w => ∀ k, (w k).isSome
  | .popFront s => L s ≠ []
  | .insertAt s k w _ => k ≤ (L s).length ∧ w.isSome
  | .eraseAt s k => k < (L s).length
  | .eraseRange s k n => k + n ≤ (L s).length ∧ L s ≠ []
  | .eraseToEnd s k => k ≤ (L s).length ∧ L s ≠ []
  | .splice s k t => s ≠ t ∧ k ≤ (L s).length
  | .spliceRange s k t i n => s ≠ t ∧ k ≤ (L s).length ∧ i + n ≤ (L t).length
  | .splitOff s i n _ => i + n ≤ (L s).length
  | .moveNode s k _ => k < (L s).length
  | .reverse _ | .remove _ _ | .eraseIf _ _ | .sort _ _ | .move _ _ | .clear _ => True

/-- Replace the sequence of one list. -/
def put (L : Nat → List α) (s : Nat) (l : List α) : Nat → List α := fun t => if t = s then l else L t

/-- The sequences after a call with reply `r`, and what the reply must be. -/
def After (F : Fns α) (L : Nat → List α) (r : Reply α) (L' : Nat → List α) : Op α → Prop
  | .pushBack s _ v => L' = put L s (L s ++ [v]) ∧ r.dropped = []
  | .pushFront s _ v => L' = put L s (v :: L s) ∧ r.dropped = []
  | .putN s _ vs => L' = put L s (L s ++ vs) ∧ r.dropped = []
  | .popFront s => L' = put L s (L s).tail ∧ r.dropped = (L s).take 1
  | .insertAt s k _ v => L' = put L s ((L s).take k ++ [v] ++ (L s).drop k) ∧ r.dropped = []
  | .insertEnd s _ v => L' = put L s (L s ++ [v]) ∧ r.dropped = []
  | .eraseAt s k => L' = put L s ((L s).take k ++ (L s).drop (k + 1)) ∧ r.dropped = ((L s).drop k).take 1
  | .eraseRange s k n => L' = put L s ((L s).take k ++ (L s).drop (k + n)) ∧ r.dropped = ((L s).drop k).take n
  | .eraseToEnd s k => L' = put L s ((L s).take k) ∧ r.dropped = (L s).drop k
  | .splice s k t => L' = put (put L s ((L s).take k ++ L t ++ (L s).drop k)) t [] ∧ r.dropped = []
  | .spliceRange s k t i n =>
    L' = put (put L s ((L s).take k ++ ((L t).drop i).take n ++ (L s).drop k)) t
      ((L t).take i ++ (L t).drop (i + n)) ∧ r.dropped = []
  | .splitOff s i n t =>
    let L1 := put L s ((L s).take i ++ (L s).drop (i + n))
    L' = put L1 t (((L s).drop i).take n) ∧ r.dropped = L1 t
  | .moveNode s k t =>
    let L1 := put L s ((L s).take k ++ (L s).drop (k + 1))
    L' = put L1 t (L1 t ++ ((L s).drop k).take 1) ∧ r.dropped = []
  | .reverse s => L' = put L s (L s).reverse ∧ r.dropped = []
  | .remove s v => L' = put L s ((L s).filter fun x => !F.eq x v) ∧
      r.dropped = (L s).filter (fun x => F.eq x v) ∧ r.n = ((L s).filter fun x => F.eq x v).length
  | .eraseIf s p => L' = put L s ((L s).filter fun x => !p x) ∧ r.dropped = (L s).filter p
  | .sort s ok => ∃ l', L' = put L s l' ∧ l'.Perm (L s) ∧ r.dropped = [] ∧
      (r.ok = true → Sort.Spec.Sorted F.less l') ∧ (r.ok = false → l' = L s) ∧
      ((∀ k, ok k = true) → L s ≠ [] → r.ok = true)
  | .copy s t _ => if s = t then L' = L ∧ r.dropped = [] else L' = put L s ((L t).map F.cl) ∧ r.dropped = L s
  | .move s t => L' = put (put L s []) t (L s) ∧ r.dropped = if s = t then [] else L t
  | .clear s => L' = put L s [] ∧ r.dropped = L s

/-- Histories of valid calls. -/
inductive Reach (F : Fns α) : Mem α → Prop
  | init : Reach F Mem.init
  | call {m m' : Mem α} {o : Op α} {r : Reply α} :
      Reach F m → valid (contents m) o → run F m o = some (m', r) → Reach F m'

/-- The list objects a call names. -/
def ids : Op α → List Nat
  | .pushBack s _ _ | .pushFront s _ _ | .putN s _ _ | .popFront s | .insertAt s _ _ _ | .insertEnd s _ _
  | .eraseAt s _ | .eraseRange s _ _ | .eraseToEnd s _ | .reverse s | .remove s _ | .eraseIf s _ | .sort s _ | .clear s => [s]
  | .splice s _ t | .spliceRange s _ t _ _ | .splitOff s _ _ t | .moveNode s _ t | .copy s t _ | .move s t => [s, t]

/-- The elements a call brings in. -/
def entered (F : Fns α) (L : Nat → List α) : Op α → List α
  | .pushBack _ _ v | .pushFront _ _ v | .insertAt _ _ _ v | .insertEnd _ _ v => [v]
  | .putN _ _ vs => vs
  | .copy s t _ => if s = t then [] else (L t).map F.cl
  | _ => []

/-- Histories on the list objects below `N`, with all elements that entered and all that were
destroyed. -/
inductive Own (F : Fns α) (N : Nat) : Mem α → List α → List α → Prop
  | init : Own F N Mem.init [] []
  | call {m m' : Mem α} {o : Op α} {r : Reply α} {ent dr : List α} :
      Own F N m ent dr → valid (contents m) o → (∀ s ∈ ids o, s < N) → run F m o = some (m', r) →
      Own F N m' (ent ++ entered F (contents m) o) (dr ++ r.dropped)

/-- The nodes of list `s` form one cycle with these contents: `as` are the distinct addresses
in order, each node holds its element and points to the next, the last node points to the first
and `last` designates the last node. -/
def OneCycle (m : Mem α) (s : Nat) (l : List α) (as : List Nat) : Prop :=
  as.length = l.length ∧ as.Nodup ∧ m.last s = as.getLast? ∧
  ∀ i a v, as[i]? = some a → l[i]? = some v →
    Buf.rd m.heap a = some ⟨v, as[(i + 1) % as.length]?⟩

/-- Two iterators designate the same place and are equally usable for editing. -/
def Same (a b : Iter) : Prop := a.ref = b.ref ∧ a.home = b.home ∧ (a.ref ≠ none → a.prev = b.prev)

end Verif.Clist.Spec
