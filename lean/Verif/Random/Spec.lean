import Verif.Random.Model
import Mathlib.Data.Finset.Card
import Mathlib.Data.Finset.Range
/- What the random functions promise. -/
namespace Verif.Random.Spec

/-- State of a generator after `n` steps. -/
def after {σ β : Type} (gen : σ → β × σ) : Nat → σ → σ
  | 0, s => s
  | n + 1, s => after gen n (gen s).2

/-- The outputs of `w` bits (as numbers) for which `p` holds. -/
def outputs (w : Nat) (p : BitVec w → Prop) [DecidablePred p] : Finset Nat :=
  (Finset.range (2 ^ w)).filter fun x => p (BitVec.ofNat w x)

/-- Any sequence of words as a generator: its state is the rest of the sequence. -/
def tape {β : Type} (dflt : β) : List β → β × List β
  | [] => (dflt, [])
  | x :: xs => (x, xs)

end Verif.Random.Spec
