import Verif.Cstr.Model
import Verif.Csview.Spec
/- Specification of strings as byte sequences. -/
namespace Verif.Cstr.Spec
open Verif.Utf8 Verif.Csview

/-- The operations of the API that change a string; pointers are memory from the pointer to the
end of its object, together with the number of bytes used. -/
inductive Op where
  | assign (m : List Byte) (n : Nat)
  | append (src : Src) (n : Nat)
  | insert (pos : Nat) (m : List Byte) (n : Nat)
  | replaceAt (pos len : Nat) (m : List Byte) (n : Nat)
  | erase (pos len : Nat)
  | resize (n : Nat) (v : Byte)
  | reserve (cap : Nat)
  | shrink
  | clear
  | appendUninit (xs : List Byte)
  | printf (out : List Byte)
  | appendFmt (out : List Byte)
  | getdelim (delim : Byte) (file : List Byte)
  | replace (search repl : List Byte) (count : Nat)

/-- The call made. -/
def run (s : Str) : Op → Option Str
  | .assign m n => (assignN true (.ext m) n s).map (·.1)
  | .append src n => (appendN true src n s).map (·.1)
  | .insert pos m n => Cstr.insert pos (.ext m) n s
  | .replaceAt pos len m n => Cstr.replaceAt pos len (.ext m) n s
  | .erase pos len => Cstr.erase pos len s
  | .resize n v => (Cstr.resize true n v s).map (·.1)
  | .reserve cap => (Cstr.reserve true cap s).map (·.1)
  | .shrink => Cstr.shrink s
  | .clear => Cstr.clear s
  | .appendUninit xs => Cstr.appendUninit xs s
  | .printf out => Cstr.printf out s
  | .appendFmt out => Cstr.appendFmt out s
  | .getdelim delim file => (Cstr.getdelim delim file s).map (·.2.1)
  | .replace search repl count => Cstr.replace search search.length repl repl.length count s

/-- The documented preconditions: sources are readable, positions lie inside the string. -/
def valid (bs : List Byte) : Op → Prop
  | .assign m n => n ≤ m.length
  | .append (.ext m) n => n ≤ m.length
  | .append (.own off) n => off + n ≤ bs.length
  | .insert pos m n => pos ≤ bs.length ∧ n ≤ m.length
  | .replaceAt pos len m n => pos + len ≤ bs.length ∧ n ≤ m.length
  | .erase pos _ => pos ≤ bs.length
  | _ => True

instance (bs : List Byte) (op : Op) : Decidable (valid bs op) := by
  cases op with
  | append src n => cases src <;> exact inferInstanceAs (Decidable (_ ≤ _))
  | assign m n => exact inferInstanceAs (Decidable (_ ≤ _))
  | erase pos n => exact inferInstanceAs (Decidable (_ ≤ _))
  | insert pos m n => exact inferInstanceAs (Decidable (_ ∧ _))
  | replaceAt pos len m n => exact inferInstanceAs (Decidable (_ ∧ _))
  | _ => exact inferInstanceAs (Decidable True)

/-- Replacement of the leftmost non-overlapping occurrences of `nd` by `r`, at most `n` of them:
`Repl nd r n s o` holds when `s` with these replaced is `o`. -/
inductive Repl (nd r : List Byte) : Nat → List Byte → List Byte → Prop
  | done (s : List Byte) : Repl nd r 0 s s
  | absent (n : Nat) (s : List Byte) : ¬ nd <:+: s → Repl nd r n s s
  | hit (n : Nat) (p t o : List Byte) : (∀ i < p.length, ¬ Csview.Spec.At nd (p ++ nd ++ t) i) →
      Repl nd r n t o → Repl nd r (n + 1) (p ++ nd ++ t) (p ++ r ++ o)

/-- The byte string after an operation. -/
def After (bs : List Byte) : Op → List Byte → Prop
  | .assign m n, o => o = m.take n
  | .append (.ext m) n, o => o = bs ++ m.take n
  | .append (.own off) n, o => o = bs ++ (bs.drop off).take n
  | .insert pos m n, o => o = bs.take pos ++ m.take n ++ bs.drop pos
  | .replaceAt pos len m n, o => o = bs.take pos ++ m.take n ++ bs.drop (pos + len)
  | .erase pos len, o => o = bs.take pos ++ bs.drop (pos + len)
  | .resize n v, o => o = bs.take n ++ List.replicate (n - bs.length) v
  | .reserve _, o => o = bs
  | .shrink, o => o = bs
  | .clear, o => o = []
  | .appendUninit xs, o => o = bs ++ xs
  | .printf out, o => o = out
  | .appendFmt out, o => o = bs ++ out
  | .getdelim _ [], o => o = bs
  | .getdelim delim file, o => o = file.takeWhile (· ≠ delim)
  | .replace search repl count, o =>
    (search = [] → o = bs) ∧ (search ≠ [] → Repl search repl (if count = 0 then 2 ^ 31 - 1 else count) bs o)

/-- Strings reachable by some history, with the byte string they stand for. -/
inductive Reach : Str → List Byte → Prop
  | init : Reach empty []
  | fromN (m : List Byte) (n : Nat) (s : Str) : n ≤ m.length → fromN m n = some s → Reach s (m.take n)
  | withSize (n : Nat) (v : Byte) (s : Str) : withSize n v = some s → Reach s (List.replicate n v)
  | withCapacity (n : Nat) (s : Str) : withCapacity n = some s → Reach s []
  | clone (s s' : Str) (bs : List Byte) : Reach s bs → clone s = some s' → Reach s' bs
  | call (s s' : Str) (bs o : List Byte) (op : Op) : Reach s bs → valid bs op → run s op = some s' →
      After bs op o → Reach s' o

end Verif.Cstr.Spec
