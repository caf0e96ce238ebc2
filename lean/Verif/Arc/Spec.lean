import Verif.Arc.Model
/- Specification of shared pointers. -/
namespace Verif.Arc.Spec
variable {α : Type}

/-- The layout of a C structure: a `long` before the value, a value of at least one byte. -/
structure Proper (L : Layout) : Prop where
  off : 8 ≤ L.off
  sz : 0 < L.sz
  rep : L.off + L.sz ≤ L.rep

/-- Two blocks have no byte in common. -/
def Apart (b c : Nat × Nat) : Prop := b.1 + b.2 ≤ c.1 ∨ c.1 + c.2 ≤ b.1

/-- What `malloc` promises: not NULL, and apart from all blocks in use. -/
def Fresh (m : Mem α) (b : Nat × Nat) : Prop := b.1 ≠ 0 ∧ ∀ c ∈ m.blocks, Apart b c

/-- The size a step of a call allocates. -/
def needs (L : Layout) : Act α → Option Nat
  | .make _ _ => some L.rep
  | .ctl _ p => if p ≠ 0 then some (L.off + 4) else none
  | .raw _ => some L.sz
  | _ => none

/-- The values a step creates. -/
def creates : Act α → List α
  | .make _ v | .raw v => [v]
  | _ => []

/-- All histories of `n` threads with `k` variables each, in any interleaving, with the values created
so far. -/
inductive Reach (L : Layout) (n k : Nat) : State α → List α → Prop
  | init : Reach L n k (init n k) []
  | call (s s' : State α) (i : Nat) (op : Op α) (made : List α) : Reach L n k s made → call s i op = some s' → Reach L n k s' made
  | step (s s' : State α) (i a : Nat) (t : Thread α) (c : Act α) (cs : List (Act α)) (made : List α) : Reach L n k s made →
      s.threads[i]? = some t → t.todo = c :: cs → (∀ z, needs L c = some z → Fresh s.mem (a, z)) →
      step L s i a = some s' → Reach L n k s' (made ++ creates c)

/-- The handles in variables and in flight that own something. -/
def handles (s : State α) : List Arc :=
  ((s.threads.flatMap fun t => t.vars.filterMap id) ++ s.chan).filter fun h => h.use ≠ 0

/-- No thread is in a call. -/
def Idle (s : State α) : Prop := ∀ t ∈ s.threads, t.todo = []

/-- When a call is legal: which variables must hold a handle and which must not. -/
def Legal (t : Thread α) (chan : List Arc) (raws : List Nat) : Op α → Prop
  | .init x | .make x _ => t.vars[x]? = some none
  | .raw _ => True
  | .fromPtr x p => t.vars[x]? = some none ∧ (p = 0 ∨ p ∈ raws)
  | .drop x | .send x | .count x => ∃ h, t.vars[x]? = some (some h)
  | .resetTo x p => (∃ h, t.vars[x]? = some (some h)) ∧ (p = 0 ∨ p ∈ raws)
  | .take x y => x ≠ y ∧ (∃ h, t.vars[x]? = some (some h)) ∧ ∃ h, t.vars[y]? = some (some h)
  | .assign x y => (∃ h, t.vars[x]? = some (some h)) ∧ ∃ h, t.vars[y]? = some (some h)
  | .move x y | .clone x y => (∃ h, t.vars[x]? = some (some h)) ∧ t.vars[y]? = some none
  | .recv x i => t.vars[x]? = some none ∧ i < chan.length
  | .read x => ∃ h, t.vars[x]? = some (some h) ∧ h.use ≠ 0

/-- A schedule: calls, and steps with the address `malloc` returns. -/
inductive Event (α : Type) where
  | call (i : Nat) (op : Op α)
  | step (i a : Nat)

instance (m : Mem α) (b : Nat × Nat) : Decidable (Fresh m b) := by unfold Fresh Apart; infer_instance

/-- The allocator keeps its promise at a step. -/
def freshFor (L : Layout) (m : Mem α) (a : Nat) (c : Act α) : Bool :=
  match needs L c with
  | some z => decide (Fresh m (a, z))
  | none => true

/-- Run a schedule, for concrete examples. -/
def run (L : Layout) : State α → List (Event α) → Option (State α)
  | s, [] => some s
  | s, .call i op :: es => (call s i op).bind fun s' => run L s' es
  | s, .step i a :: es =>
    match (s.threads[i]?.bind fun t => t.todo.head?) with
    | none => none
    | some c => if freshFor L s.mem a c then (step L s i a).bind fun s' => run L s' es else none

end Verif.Arc.Spec
