import Verif.Box.Model
/- Specification of owning pointers: variables hold values, not addresses. -/
namespace Verif.Box.Spec
variable {α : Type}

/-- What the variables and the user's pointers contain: `none` for a variable without a box, `some none`
for NULL. -/
structure View (α : Type) where
  vars : List (Option (Option α))
  raws : List (Option α)
  dropped : List α

def View.set (w : View α) (x : Nat) (o : Option (Option α)) : View α := { w with vars := w.vars.set x o }

/-- The calls on values. -/
def step (cl : α → α) (w : View α) : Op α → Option (View α)
  | .init x => match w.vars[x]? with
    | some none => some (w.set x (some none))
    | _ => none
  | .make x v => match w.vars[x]? with
    | some none => some (w.set x (some (some v)))
    | _ => none
  | .raw v => some { w with raws := some v :: w.raws }
  | .freeRaw i => match w.raws[i]? with
    | some o => some { w with raws := w.raws.eraseIdx i, dropped := w.dropped ++ o.toList }
    | none => none
  | .fromPtr x i => match w.vars[x]?, w.raws[i]? with
    | some none, some o => some { w.set x (some o) with raws := w.raws.eraseIdx i }
    | _, _ => none
  | .drop x => match w.vars[x]? with
    | some (some o) => some { w.set x none with dropped := w.dropped ++ o.toList }
    | _ => none
  | .move x y => match w.vars[x]?, w.vars[y]? with
    | some (some o), some none => some ((w.set x (some none)).set y (some o))
    | _, _ => none
  | .release x => match w.vars[x]? with
    | some (some o) => some { w.set x (some none) with raws := o :: w.raws }
    | _ => none
  | .resetTo x i => match w.vars[x]?, w.raws[i]? with
    | some (some o), some q => some { w.set x (some q) with raws := w.raws.eraseIdx i, dropped := w.dropped ++ o.toList }
    | _, _ => none
  | .take x y => match w.vars[x]?, w.vars[y]? with
    | some (some o), some (some q) => if x = y then none else some { (w.set x (some q)).set y none with dropped := w.dropped ++ o.toList }
    | _, _ => none
  | .assign x y => match w.vars[x]?, w.vars[y]? with
    | some (some o), some (some q) => if x = y then some w else some { (w.set x (some q)).set y (some none) with dropped := w.dropped ++ o.toList }
    | _, _ => none
  | .clone x y => match w.vars[x]?, w.vars[y]? with
    | some (some o), some none => some (w.set y (some (o.map cl)))
    | _, _ => none

/-- The values a call creates. -/
def creates (cl : α → α) (w : View α) : Op α → List α
  | .make _ v | .raw v => [v]
  | .clone x _ => match w.vars[x]? with
    | some (some (some v)) => [cl v]
    | _ => []
  | _ => []

def init (k : Nat) : View α := ⟨List.replicate k none, [], []⟩

/-- What `malloc` promises. -/
def Fresh (m : Mem α) (a : Nat) : Prop := a ≠ 0 ∧ a ∉ m.blocks

/-- All histories of legal calls, with what the variables should contain and the values created. -/
inductive Reach (cl : α → α) (k : Nat) : State α → View α → List α → Prop
  | init : Reach cl k (Box.init k) (init k) []
  | step (s s' : State α) (w w' : View α) (made : List α) (a : Nat) (op : Op α) : Reach cl k s w made → step cl w op = some w' → Fresh s.mem a →
      Box.step cl s a op = some s' → Reach cl k s' w' (made ++ creates cl w op)

/-- A pointer and what it should point to. -/
def Points (m : Mem α) (p : Nat) : Option α → Prop
  | none => p = 0
  | some v => p ≠ 0 ∧ m.load p = some v

/-- The pointers held by boxes and by the user, except NULL. -/
def owners (s : State α) : List Nat := (s.vars.filterMap id ++ s.raws).filter fun p => p ≠ 0

/-- The values held. -/
def held (w : View α) : List α := (w.vars.flatMap fun o => o.join.toList) ++ w.raws.flatMap Option.toList

instance (m : Mem α) (a : Nat) : Decidable (Fresh m a) := by unfold Fresh; infer_instance

/-- Run calls with the addresses `malloc` returns, for concrete examples. -/
def run (cl : α → α) : State α → View α → List (Op α × Nat) → Option (State α × View α)
  | s, w, [] => some (s, w)
  | s, w, (op, a) :: es => if Fresh s.mem a then
      (step cl w op).bind fun w' => (Box.step cl s a op).bind fun s' => run cl s' w' es
    else none

end Verif.Box.Spec
