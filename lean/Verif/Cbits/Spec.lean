import Verif.Cbits.Model
/- Specification of `cbits`: a list of booleans. -/
namespace Verif.Cbits.Spec

/-- bit `i` of a buffer (0 beyond it). -/
def bitOf (s : Bits) (i : Nat) : Bool := (s.words.getD (i / 64) 0#64).getLsbD (i % 64)

/-- the bits an operand holds. -/
def bitsOf (s : Bits) : List Bool := (List.range s.size).map (bitOf s)

/-- a well formed operand. -/
def WF (s : Bits) : Prop := s.words.length = nWords s.size

instance (s : Bits) : Decidable (WF s) := inferInstanceAs (Decidable (s.words.length = nWords s.size))

/-- Caller preconditions. -/
def valid (bs : List Bool) : Op → Prop
  | .set i | .reset i | .setValue i _ | .flip i => i < bs.length
  | .intersect o | .union o | .xor o => o.size = bs.length ∧ WF o
  | .resize _ _ n _ => 0 < n
  | .copy o => WF o
  | .flipAll | .setAll _ | .setPattern _ => True

instance (bs : List Bool) (o : Op) : Decidable (valid bs o) :=
  match o with
  | .set i | .reset i | .setValue i _ | .flip i => inferInstanceAs (Decidable (i < bs.length))
  | .intersect o | .union o | .xor o => inferInstanceAs (Decidable (o.size = bs.length ∧ WF o))
  | .resize _ _ n _ => inferInstanceAs (Decidable (0 < n))
  | .copy o => inferInstanceAs (Decidable (WF o))
  | .flipAll | .setAll _ | .setPattern _ => inferInstanceAs (Decidable True)

/-- Effect on the list of booleans. -/
def after (bs : List Bool) : Op → List Bool
  | .set i => bs.set i true
  | .reset i => bs.set i false
  | .setValue i b => bs.set i b
  | .flip i => bs.modify i (!·)
  | .flipAll => bs.map (!·)
  | .setAll v => bs.map (fun _ => v)
  | .setPattern p => bs.mapIdx (fun i _ => p.getLsbD (i % 64))
  | .intersect o => List.zipWith (· && ·) bs (bitsOf o)
  | .union o => List.zipWith (· || ·) bs (bitsOf o)
  | .xor o => List.zipWith (· ^^ ·) bs (bitsOf o)
  | .resize ok _ n v => if ok then bs.take n ++ List.replicate (n - bs.length) v else bs
  | .copy o => bitsOf o

/-- Histories. -/
inductive Reach : Bits → List Bool → Prop
  | init : Reach ⟨[], 0⟩ []
  | withSize {junk n v s} : withSize true junk n v = some s → Reach s (List.replicate n v)
  | withPattern {junk n p s} : withPattern true junk n p = some s →
      Reach s ((List.range n).map fun i => p.getLsbD (i % 64))
  | fromStr {junk str s} : fromStr true junk str = some s → Reach s (str.map (· == '1'))
  | call {s s' : Bits} {bs : List Bool} {o : Op} {r : Bool} :
      Reach s bs → valid bs o → step s o = some (s', r) → Reach s' (after bs o)

end Verif.Cbits.Spec
