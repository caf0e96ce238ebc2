import Verif.Regex.Exec
import Verif.Cstr.Model
/-
Replacing, and iterating over matches (cregex_prv.c:1233-1326, cregex.h:86-138). Allocations succeed. A
transformation of the groups is a function of the group's number and text, which answers `none` when it
declines.
-/
namespace Verif.Regex
open Verif.Utf8 (Byte)
open Verif.Cstr (Str)

/-- The bytes of a view, read one by one (cregex_prv.c:1257-1258); an unset one has size 0. -/
def viewBytes (m : List Byte) (v : Sub) : Option (List Byte) :=
  if v.size ≤ 0 then some []
  else v.buf.bind fun b => if b + v.size.toNat ≤ m.length then some ((m.drop b).take v.size.toNat) else none

/-- The element `match[k]` after a match (cregex_prv.c:258-268). -/
def Match.view (x : Match) (k : Nat) : Sub := if k = 0 then ⟨some x.start, (x.stop : Int) - x.start⟩ else x.sub k

/-- '0' to '9'. -/
def isDig (b : Byte) : Bool := 48 ≤ b.toNat && b.toNat ≤ 57

/-- cregex_prv.c:1249-1251: a second digit and a semicolon. `r` is what follows the first digit. -/
def argOf (a : Nat) : List Byte → Option (Nat × List Byte)
  | [] => none
  | d :: r =>
    if isDig d then
      match r with
      | [] => none
      | e :: r' => if e = 59#8 then some (a * 10 + (d.toNat - 48), r') else some (a, d :: e :: r')
    else some (a, d :: r)

/-- cregex_prv.c:1255-1258 and 1265-1267: bytes are written at `len`, after making room; `more` is by how
much the capacity grows. -/
def subPut (room : Bool) (more : Nat) (bs : List Byte) (len cap : Nat) (s : Str) : Option (Str × Nat) := do
  let (s, cap) ← (if room then (Cstr.reserve true (cap + (cap / 2 + more)) s).map (fun x => (x.1, cap + (cap / 2 + more))) else some (s, cap))
  let d ← Cstr.data s
  let d ← Cstr.put d len (bs.map some)
  some (Cstr.setBuf d s, cap)

/-- cregex_prv.c:1241-1268: the loop; the list is what `replace` points at. `n`: number of groups, with
the whole match; `grp k`: the text for group `k`. Result: the string and its length. -/
def subLoop (n : Nat) (grp : Nat → Option (List Byte)) : Nat → List Byte → Nat → Nat → Str → Option (Str × Nat)
  | 0, _, _, _, _ => none
  | _ + 1, [], _, _, _ => none
  | f + 1, c :: r, len, cap, s =>
    if c = 0#8 then some (s, len)
    else if c = 36#8 then
      match r with
      | [] => none
      | a :: r' =>
        if isDig a then
          (argOf (a.toNat - 48) r').bind fun x =>
            if x.1 < n then
              (grp x.1).bind fun bs => (subPut (decide (len + bs.length > cap)) bs.length bs len cap s).bind fun y =>
                subLoop n grp f x.2 (len + bs.length) y.2 y.1
            else subLoop n grp f x.2 len cap s
        else if a = 36#8 then (subPut (decide (len = cap)) 4 [a] len cap s).bind fun y => subLoop n grp f r' (len + 1) y.2 y.1
        else (subPut (decide (len = cap)) 4 [c] len cap s).bind fun y => subLoop n grp f (a :: r') (len + 1) y.2 y.1
    else (subPut (decide (len = cap)) 4 [c] len cap s).bind fun y => subLoop n grp f r (len + 1) y.2 y.1

/-- cregex_prv.c:1233-1271 `_build_substitution`. -/
def buildSub (repl : List Byte) (n : Nat) (grp : Nat → Option (List Byte)) (s : Str) : Option Str := do
  let (_, _, cap) ← Cstr.getbuf s
  let (s, len) ← subLoop n grp (repl.length + 1) repl 0 cap s
  Cstr.setSize len s

/-- The text that a group is replaced by (cregex_prv.c:1253-1254). -/
def groupBytes (m : List Byte) (tr : Nat → List Byte → Option (List Byte)) (x : Match) (k : Nat) : Option (List Byte) :=
  (viewBytes m (x.view k)).map fun bs => (tr k bs).getD bs

/-- cregex.h:117-120 `cregex_match_sv` on the view of `size` bytes at `buf`. -/
def matchSv (P : Prog) (E : Env) (alloc : Bool) (buf size : Nat) : Option (Int × Option Match) :=
  exec P { E with bol := buf, eol := some (buf + size) } false buf alloc

/-- cregex_prv.c:1314-1322: the loop of `cregex_replace_pro`, and 1323 after it. `n`: number of groups,
with the whole match. The text lies in the
memory `E.m`. (A negative count goes on for as many rounds as there are matches.) -/
def replaceLoop (P : Prog) (E : Env) (alloc : Bool) (n : Nat) (repl : List Byte) (tr : Nat → List Byte → Option (List Byte)) (copy : Bool) :
    Nat → Nat → Nat → Str → Str → Option Str
  | 0, buf, size, out, _ => if copy then (Cstr.appendN true (.ext (E.m.drop buf)) size out).map (·.1) else some out
  | c + 1, buf, size, out, subst =>
    (matchSv P E alloc buf size).bind fun res =>
      match res with
      | (1, some x) =>
        (buildSub repl n (groupBytes E.m tr x) subst).bind fun subst =>
        (if copy && decide (buf < x.start) then (Cstr.appendN true (.ext (E.m.drop buf)) (x.start - buf) out).map (·.1) else some out).bind fun out =>
        (Cstr.mem subst).bind fun bytes =>
        (Cstr.getbuf subst).bind fun y =>
        (Cstr.appendN true (.ext bytes) y.2.1 out).bind fun out =>
        if x.start < buf ∨ buf + size < x.stop ∨ x.stop < x.start then none
        else replaceLoop P E alloc n repl tr copy c x.stop (buf + size - x.stop) out.1 subst
      | (1, none) => none
      | _ => if copy then (Cstr.appendN true (.ext (E.m.drop buf)) size out).map (·.1) else some out

/-- cregex_prv.c:1306-1326 `cregex_replace_pro`; `nsub` is `cregex_captures`, `copy` is the absence of
CREG_STRIP. A result that leaves the view is not followed further: it counts as undefined. -/
def replacePro (P : Prog) (nsub : Nat) (E : Env) (alloc : Bool) (buf size : Nat) (repl : List Byte) (count : Nat)
    (tr : Nat → List Byte → Option (List Byte)) (copy : Bool) : Option Str :=
  replaceLoop P E alloc (nsub + 1) repl tr copy count buf size Cstr.empty Cstr.empty

/-- cregex.h:136-138 `cregex_match_next` and the condition of `c_match` (86-88) over a terminated text at
`buf`: the matches seen, at most `rounds` of them. `at_` is the end of the previous match. -/
def iterLoop (P : Prog) (E : Env) (alloc : Bool) : Nat → Nat → Option (List Match × Bool)
  | 0, _ => some ([], false)
  | f + 1, at_ =>
    (exec P { E with eol := none } false at_ alloc).bind fun res =>
      match res with
      | (1, some x) => if x.stop = x.start then some ([], true) else (iterLoop P E alloc f x.stop).map fun y => (x :: y.1, y.2)
      | (1, none) => none
      | _ => some ([], true)

end Verif.Regex
