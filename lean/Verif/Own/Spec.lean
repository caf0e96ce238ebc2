import Verif.Own.Model
/-
What a program with container variables means: every variable that is in use has a sequence of values of its own.
-/
namespace Verif.Own.Spec
variable {ν : Type}

/-- The values of the variables in use; `none`: not in use (before initialisation or after drop). -/
abbrev Vals (ν : Type) := Nat → Option (List ν)

/-- One call, on values: `none` when the program breaks the rules (using a variable not in use, initialising one in
use, a position outside, swapping a variable with itself). `r = false` means that memory ran out: then adding changes
nothing, and a clone or copy is empty. -/
def step (m : Vals ν) (r : Bool) : Op ν → Option (Vals ν)
  | .init i => if m i = none then some (set m i (some [])) else none
  | .insert i p v _ => (m i).bind fun l =>
      if p ≤ l.length then some (if r then set m i (some (l.take p ++ v :: l.drop p)) else m) else none
  | .remove i p _ => (m i).bind fun l => if p < l.length then some (set m i (some (l.eraseIdx p))) else none
  | .clear i => (m i).bind fun _ => some (set m i (some []))
  | .clone j i _ => (m i).bind fun l => if m j = none then some (set m j (some (if r then l else []))) else none
  | .copy j i _ => (m i).bind fun l => (m j).bind fun _ => some (set m j (some (if r then l else [])))
  | .move j i => (m i).bind fun l => if m j = none then some (set (set m i (some [])) j (some l)) else none
  | .take j i => (m i).bind fun l => (m j).bind fun _ => some (set (set m i (some [])) j (some l))
  | .swap i j => (m i).bind fun l => (m j).bind fun l' => if i = j then none else some (set (set m i (some l')) j (some l))
  | .drop i => (m i).bind fun _ => some (set m i none)

/-- The program keeps the rules with this call. -/
def Legal (m : Vals ν) (op : Op ν) : Prop := step m true op ≠ none

/-- The allocator grants what a clone or copy asks for; asked of all containers but vec. -/
def Granted (k : Kind) (s : St ν) (op : Op ν) : Prop :=
  k = .vec ∨
  match op with
  | .clone _ i a => ∀ h b, deref s i = some (h, b) → grant s b.el.length a ≠ none
  | .copy j i a => ∀ h b h' b' t, deref s i = some (h, b) → deref s j = some (h', b') → h ≠ h' → drop s j = some t →
      grant t b.el.length a ≠ none
  | _ => True

/-- The states of memory a program that keeps the rules gets to, with the values it has computed. -/
inductive Reach (k : Kind) : St ν → Vals ν → Prop
  | start : Reach k start fun _ => none
  | step {s t : St ν} {m m' : Vals ν} {op : Op ν} {r : Bool} : Reach k s m → Legal m op → Granted k s op →
      Own.step k s op = some (t, r) → step m r op = some m' → Reach k t m'

/-- The values a variable holds. -/
def values (s : St ν) (i : Nat) : Option (List ν) := (deref s i).map fun x => x.2.el.map (·.2)

/-- The object is in the container of a variable that is in use. -/
def Held (s : St ν) (m : Vals ν) (x i : Nat) : Prop := m i ≠ none ∧ ∃ h b, deref s i = some (h, b) ∧ x ∈ b.el.map (·.1)

end Verif.Own.Spec
