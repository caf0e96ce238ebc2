import Verif.Algo.Model
/- Specifications for the generic algorithms. -/
namespace Verif.Algo.Spec
variable {ι α : Type}

/-- The `k`th number of the range is before `stop`. -/
def Inside (start stop step : Int) (k : Nat) : Prop :=
  (0 < step ∧ start + k * step < stop) ∨ (step < 0 ∧ stop < start + k * step)

instance (start stop step : Int) (k : Nat) : Decidable (Inside start stop step k) := by unfold Inside; infer_instance

/-- `xs` is `start`, `start + step`, … up to, not including, `stop`. -/
def IsRange (start stop step : Int) (xs : List Int) : Prop :=
  ∀ k, xs[k]? = if Inside start stop step k then some (start + k * step) else none

/-- No number of the computation leaves the signed type: the bounds fit, and so does the step past
`stop`. -/
structure Fits (w : Nat) (start stop step : Int) : Prop where
  start1 : -((2 : Int) ^ (w - 1)) ≤ start
  start2 : start < 2 ^ (w - 1)
  up : 0 < step → -((2 : Int) ^ (w - 1)) < stop ∧ stop - 1 + step < 2 ^ (w - 1)
  down : step < 0 → stop < 2 ^ (w - 1) ∧ -((2 : Int) ^ (w - 1)) ≤ stop + 1 + step ∧ -((2 : Int) ^ (w - 1)) ≤ stop

/-- Walking from one iterator to another, over the iterators and values in between. -/
inductive Path (W : Walker ι α) : ι → List (ι × α) → ι → Prop
  | nil (it : ι) : Path W it [] it
  | cons (it it' e : ι) (r : Nat) (x : α) (l : List (ι × α)) : W.ref it = some r → W.load it = some x →
      W.next it = some it' → Path W it' l e → Path W it ((it, x) :: l) e

/-- The iterator goes over the values `xs` and then is NULL. -/
inductive Yields (W : Walker ι α) : ι → List α → Prop
  | nil (it : ι) : W.ref it = none → Yields W it []
  | cons (it it' : ι) (r : Nat) (x : α) (xs : List α) : W.ref it = some r → W.load it = some x →
      W.next it = some it' → Yields W it' xs → Yields W it (x :: xs)

/-- What a stage of a pipeline does to the whole sequence. The forms for coroutines let the element pass at which they
stop: `cco_flt_take(0)` the first one, `cco_flt_takewhile` the first one that fails the test. -/
def stage (s : Stage α) (xs : List α) : List α :=
  match s with
  | .filt p => xs.filter p
  | .map f => xs.map f
  | .skip n => xs.drop n
  | .take n => xs.take n
  | .skipWhile p => xs.dropWhile p
  | .takeWhile p => xs.takeWhile p
  | .counted p => ((xs.zipIdx 1).filter fun e => p e.2 e.1).map Prod.fst
  | .coTake n => xs.take (max n 1)
  | .coTakeWhile p => xs.takeWhile p ++ (xs.dropWhile p).take 1

/-- The stages one after the other. -/
def pipe (ss : List (Stage α)) (xs : List α) : List α := ss.foldl (fun xs s => stage s xs) xs

/-- Stages with a counter. -/
def counters (ss : List (Stage α)) : Nat :=
  ss.countP fun
    | .skip _ | .take _ | .counted _ | .coTake _ => true
    | _ => false

/-- Stages with a flag. -/
def flags (ss : List (Stage α)) : Nat :=
  ss.countP fun
    | .skipWhile _ | .takeWhile _ | .coTakeWhile _ => true
    | _ => false

end Verif.Algo.Spec
