import Verif.Utf8.Model
/-
Model of the regular expression matcher, /repo/include/stc/priv/cregex_prv.c and cregex.h.

Instructions are numbered; a pointer to an instruction is its number, NULL is `none`. Positions in the
text are byte offsets into one memory object `m` (that contains the terminator). `none` as a result is
undefined behaviour: reading outside the memory, following a NULL instruction, or writing behind the
end of a thread list.

Simplifications: of the sub-matches of a thread, `m[0].buf` is the field `start` and `m[0].size` (which
is only read after being set at the end of a match) is left out; all sub-matches are copied also if the
program has no groups (the code then copies `m[0]` only, and reads no other); `mp` is always given. The
tests of named character classes and `utf8_isword` are parameters.
-/
namespace Verif.Regex
open Verif.Utf8 (Byte casefold decodeCp)

/-- Instruction types with their operands (cregex_prv.c 54-68, 112-186). `cls` is `TOK_CCLASS` or
`TOK_NCCLASS` with the spans of the class. -/
inductive Op
  | rune (c : Nat) | irune (c : Nat) | any | anynl
  | cls (neg : Bool) (spans : List (Nat × Nat))
  | lbra (id : Nat) | rbra (id : Nat)
  | bol | bos | eol | eos | eoz | wbound | nwbound | cased | icase
  | or (right : Nat) | nop | fin
deriving DecidableEq, Repr

/-- `_Reinst` (cregex_prv.c 54-68); `next` is `l.next`, the same as `l.left`. -/
structure Inst where
  op : Op
  next : Option Nat
deriving DecidableEq, Repr

/-- `_Reprog` (cregex_prv.c 78-86): the instructions, `startinst`, `flags.icase`. -/
structure Prog where
  insts : List Inst
  start : Nat
  icase : Bool
deriving DecidableEq, Repr

/-- `_Resub` (cregex_prv.c 91). -/
structure Sub where
  buf : Option Nat
  size : Int
deriving DecidableEq, Repr

/-- The sub-matches of a thread (cregex_prv.c 96-99): `m[0].buf` and the groups. -/
structure Se where
  start : Nat
  sub : Nat → Sub

/-- `_Relist` (cregex_prv.c 194-198). -/
structure Thread where
  inst : Nat
  se : Se

/-- What is reported in `match[]`. -/
structure Match where
  start : Nat
  stop : Nat
  sub : Nat → Sub

/-- The text: its memory, the beginning and the end of the input (`bol`, `j->eol`), the test of class
codes in `_runematch` (cregex_prv.c 943-991), and `utf8_isword`. -/
structure Env where
  m : List Byte
  bol : Nat
  eol : Option Nat
  grp : Nat → Nat → Bool
  word : Nat → Bool

/-- The codes standing for a class of characters (cregex_prv.c 125-172). -/
def isCode (s : Nat) : Bool := 0x8100002 ≤ s && s < 0x8200000

/-- `_runematch` (cregex_prv.c 938-993). -/
def runematch (E : Env) (s r : Nat) : Bool := if isCode s then E.grp s r else s == r

/-- The rune at a position and its length (cregex_prv.c 1055-1056). -/
def rune (m : List Byte) (s : Nat) : Option (Nat × Nat) :=
  (m[s]?).bind fun b => if b.toNat < 0x80 then some (b.toNat, 1) else decodeCp (m.drop s) (m.length + 1)

/-- The loop over the spans of a class (cregex_prv.c 1121-1124). -/
def inSpans (E : Env) (r : Nat) : List (Nat × Nat) → Bool
  | [] => false
  | p :: ps => (p.1 ≤ r && r ≤ p.2) || (p.1 == p.2 && runematch E p.1 r) || inSpans E r ps

/-- `utf8_offset(s, -1)` (utf8_prv.h 62-68), from a byte that is not the terminator: back to the
nearest byte that is not a continuation byte. -/
def stepBack (m : List Byte) : Nat → Option Nat
  | 0 => none
  | s + 1 => (m[s]?).bind fun b => if Verif.Utf8.lead b then some s else stepBack m s

/-- `utf8_peek_at(s, -1)` (utf8_prv.c 69-71); at the terminator the offset is not applied. -/
def peekBack (m : List Byte) (s : Nat) : Option Nat :=
  (m[s]?).bind fun b =>
    if b = 0#8 then Verif.Utf8.peek (m.drop s)
    else (stepBack m s).bind fun k => Verif.Utf8.peek (m.drop k)

/-- The condition of `\b` (cregex_prv.c 1112-1113). -/
def boundary (E : Env) (s : Nat) : Option Bool :=
  if s = E.bol ∨ some s = E.eol then some true
  else (peekBack E.m s).bind fun a => (Verif.Utf8.peek (E.m.drop s)).bind fun b => some (E.word a ^^ E.word b)

/-- What an instruction does: continue with the next one, drop the thread, consume the character,
begin or end a group, try two alternatives, report a match. -/
inductive Eff | go | die | eat | opening (k : Nat) | closing (k : Nat) | fork (right : Nat) | fin
deriving DecidableEq, Repr

def Eff.test (b : Bool) : Eff := if b then .eat else .die
def Eff.pass (b : Bool) : Eff := if b then .go else .die

/-- The `switch` over the instruction types (cregex_prv.c 1074-1137), at position `s` with the
character `r` and the flag `icase`; new `r`, new `icase`, and what is done. -/
def eff (E : Env) (s r : Nat) (ic : Bool) : Op → Option (Nat × Bool × Eff)
  | .irune c => some (casefold r, ic, .test (runematch E c (casefold r)))
  | .rune c => some (r, ic, .test (runematch E c r))
  | .cased => some (r, false, .go)
  | .icase => some (r, true, .go)
  | .lbra k => some (r, ic, .opening k)
  | .rbra k => some (r, ic, .closing k)
  | .any => some (r, ic, .test (r != 10))
  | .anynl => some (r, ic, .eat)
  | .bol =>
    if s = E.bol then some (r, ic, .go)
    else if s = 0 then none
    else (E.m[s - 1]?).bind fun b => some (r, ic, .pass (b.toNat == 10))
  | .bos => some (r, ic, .pass (s == E.bol))
  | .eol => if r = 10 then some (r, ic, .go) else some (r, ic, .pass (some s == E.eol || r == 0))
  | .eos => some (r, ic, .pass (some s == E.eol || r == 0))
  | .eoz =>
    if some s = E.eol ∨ r = 0 then some (r, ic, .go)
    else if r = 10 then (E.m[s + 1]?).bind fun b => some (r, ic, .pass (b.toNat == 0))
    else some (r, ic, .die)
  | .wbound => (boundary E s).bind fun b => some (r, ic, .pass b)
  | .nwbound => (boundary E s).bind fun b => some (r, ic, if b then .eat else .go)
  | .cls neg spans =>
    let r := if ic then casefold r else r
    some (r, ic, .test (neg ^^ inSpans E r spans))
  | .or right => some (r, ic, .fork right)
  | .nop => some (r, ic, .die)
  | .fin => some (r, ic, .fin)

/-- The search for a thread with this instruction in `_renewthread` (cregex_prv.c 283-293); none if
there is none. -/
def bump : List Thread → Nat → Se → Option (List Thread)
  | [], _, _ => none
  | t :: ts, ip, se =>
    if t.inst = ip then some ((if se.start < t.se.start then ⟨ip, se⟩ else t) :: ts)
    else (bump ts ip se).map (t :: ·)

/-- `_renewthread` (cregex_prv.c 275-301), searching the list from the thread number `d` on, and whether
the returned pointer is the end mark of the list, `cap - 2`. The lists have `cap` elements. -/
def renew (cap d : Nat) (l : List Thread) (ip : Nat) (se : Se) : Option (Bool × List Thread) :=
  match bump l ip se with
  | some l => some (false, l)
  | none => if d + l.length + 1 < cap then some (decide (d + l.length + 1 = cap - 2), l ++ [⟨ip, se⟩]) else none

/-- No groups. -/
def noSub : Nat → Sub := fun _ => ⟨none, 0⟩

/-- `_renewemptythread` (cregex_prv.c 307-331), whose result is not looked at. -/
def renewEmpty (cap : Nat) (l : List Thread) (ip s : Nat) : Option (List Thread) :=
  (renew cap 0 l ip ⟨s, noSub⟩).map (·.2)

/-- `_renewmatch` (cregex_prv.c 258-268). -/
def renewMatch (mp : Option Match) (se : Se) (s : Nat) : Option Match :=
  match mp with
  | none => some ⟨se.start, s, se.sub⟩
  | some b => if se.start < b.start ∨ (se.start = b.start ∧ s > b.stop) then some ⟨se.start, s, se.sub⟩ else some b

/-- The value of `match` at `TOK_END` (cregex_prv.c 1133-1135). -/
def finMatch (E : Env) (full : Bool) (s r start : Nat) : Option Bool :=
  if ¬ full then some true
  else if some s = E.eol ∨ r = 0 ∨ r = 10 then
    if start = E.bol then some true
    else if start = 0 then none
    else (E.m[start - 1]?).bind fun b => some (b.toNat == 10)
  else some false

/-- The variables changed while the threads of one position are executed: `r`, `icase`, the threads
behind the current one, `nl`, `match` and `mp`. -/
structure Mid where
  r : Nat
  icase : Bool
  pend : List Thread
  nl : List Thread
  matched : Bool
  mp : Option Match

/-- A list was full (`return -1`), or the new state. -/
inductive Out
  | full
  | ok (q : Mid)

def setBuf (se : Se) (k s : Nat) : Se := { se with sub := fun x => if x = k then { se.sub k with buf := some s } else se.sub x }

/-- `size = s - buf` (cregex_prv.c 1087). -/
def setSize (se : Se) (k s : Nat) : Option Se :=
  ((se.sub k).buf).map fun (b : Nat) => { se with sub := fun x => if x = k then { se.sub k with size := (s : Int) - (b : Int) } else se.sub x }

/-- `TOK_OR` (cregex_prv.c 1128-1130): the thread list from the current one on, which is `⟨cur, se⟩`. -/
def fork (cap d cur : Nat) (right : Nat) (se : Se) (q : Mid) : Option Out :=
  (renew cap d (⟨cur, se⟩ :: q.pend) right se).map fun x => if x.1 then .full else .ok { q with pend := x.2.tail }

/-- The addition to the next list (cregex_prv.c 1142-1143). -/
def eat (cap : Nat) (k : Nat) (se : Se) (q : Mid) : Option Out :=
  (renew cap 0 q.nl k se).map fun x => if x.1 then .full else .ok { q with nl := x.2 }

/-- `TOK_END` (cregex_prv.c 1132-1139). -/
def finish (E : Env) (full : Bool) (s : Nat) (se : Se) (q : Mid) : Option Out :=
  (finMatch E full s q.r se.start).map fun b => .ok { q with matched := b, mp := renewMatch q.mp se s }

/-- The inner loop (cregex_prv.c 1071-1145): thread number `d`, that began at instruction `cur`, is at
instruction `pc`. The fuel is at least the number of instructions it passes. -/
def chain (P : Prog) (E : Env) (full : Bool) (cap d cur s : Nat) : Nat → Nat → Se → Mid → Option Out
  | 0, _, _, _ => none
  | f + 1, pc, se, q =>
    (P.insts[pc]?).bind fun i =>
    (eff E s q.r q.icase i.op).bind fun x =>
    let q := { q with r := x.1, icase := x.2.1 }
    match x.2.2 with
    | .go => i.next.bind fun k => chain P E full cap d cur s f k se q
    | .die => some (.ok q)
    | .eat => i.next.bind fun k => eat cap k se q
    | .opening k => i.next.bind fun n => chain P E full cap d cur s f n (setBuf se k s) q
    | .closing k => (setSize se k s).bind fun se => i.next.bind fun n => chain P E full cap d cur s f n se q
    | .fork right => (fork cap d cur right se q).bind fun o =>
        match o with
        | .full => some .full
        | .ok q => i.next.bind fun k => chain P E full cap d cur s f k se q
    | .fin => finish E full s se q

/-- The loop over the threads (cregex_prv.c 1070-1146), from number `d` on. -/
def threads (P : Prog) (E : Env) (full : Bool) (cap s : Nat) : Nat → Nat → List Thread → Mid → Option Out
  | 0, _, _, _ => none
  | _ + 1, _, [], q => some (.ok q)
  | f + 1, d, t :: ts, q =>
    (chain P E full cap d t.inst s (P.insts.length + 1) t.inst t.se { q with pend := ts }).bind fun o =>
      match o with
      | .full => some .full
      | .ok q => threads P E full cap s f (d + 1) q.pend q

/-- `strchr`-like search from a position: the first byte satisfying `p`, or NULL at the terminator. -/
def findByte (m : List Byte) (p : Byte → Bool) : Nat → Nat → Option (Option Nat)
  | 0, _ => none
  | f + 1, s => (m[s]?).bind fun b => if p b then some (some s) else if b = 0#8 then some none else findByte m p f (s + 1)

/-- `tolower` of an ASCII character. -/
def lowerAscii (c : Nat) : Nat := if 65 ≤ c ∧ c ≤ 90 then c + 32 else c

/-- `j.starttype` and `j.startchar` (cregex_prv.c 1206-1215). -/
inductive Start | none | chr (c : Nat) | ichr (c : Nat) | bol
deriving DecidableEq

def startType (P : Prog) : Start :=
  match P.insts[P.start]? with
  | some ⟨.rune c, _⟩ => if P.icase = false ∧ c < 128 then .chr c else .none
  | some ⟨.irune c, _⟩ => if P.icase = true ∧ c < 128 then .ichr c else .none
  | some ⟨.bol, _⟩ => .bol
  | _ => .none

/-- The fast check for the first character (cregex_prv.c 1033-1054), with `utfrune` (216-230) and
`utfruneicase` (232-250): the new position, or none to return. -/
def startCheck (E : Env) (st : Start) (s : Nat) : Option (Option Nat) :=
  match st with
  | .none => some (some s)
  | .chr c => (findByte E.m (fun b => b.toNat == c) (E.m.length + 1) s).bind fun p => some (if some s = E.eol then Option.none else p)
  | .ichr c => (findByte E.m (fun b => b != 0#8 && lowerAscii b.toNat == lowerAscii c) (E.m.length + 1) s).bind fun p => some (if some s = E.eol then Option.none else p)
  | .bol =>
    if s = E.bol then some (some s)
    else (findByte E.m (fun b => b.toNat == 10) (E.m.length + 1) s).bind fun p => some (if some s = E.eol then Option.none else p.map (· + 1))

/-- The beginning of an iteration of the main loop: the fast check if it is due. -/
def seek (P : Prog) (E : Env) (check : Bool) (s : Nat) : Option (Option Nat) := if check then startCheck E (startType P) s else some (some s)

/-- The thread for a match beginning here (cregex_prv.c 1066-1067). -/
def inject (P : Prog) (cap : Nat) (matched : Bool) (tl : List Thread) (s : Nat) : Option (List Thread) :=
  if matched then some tl else renewEmpty cap tl P.start s

/-- The main loop (cregex_prv.c 1030-1151); `tl` is the list filled in the iteration before. -/
def mainLoop (P : Prog) (E : Env) (full : Bool) (cap : Nat) : Nat → Nat → Bool → List Thread → Bool → Bool → Option Match → Option (Int × Option Match)
  | 0, _, _, _, _, _, _ => none
  | f + 1, s, check, tl, ic, matched, mp =>
    (seek P E check s).bind fun o =>
    match o with
    | none => some (if matched then 1 else 0, mp)
    | some s =>
      (rune E.m s).bind fun rn =>
      (inject P cap matched tl s).bind fun tl =>
      (threads P E full cap s (cap + 1) 0 tl ⟨rn.1, ic, [], [], matched, mp⟩).bind fun o =>
      match o with
      | .full => some (-1, none)
      | .ok q =>
        if some s = E.eol ∨ q.r = 0 then some (if q.matched then 1 else 0, q.mp)
        else mainLoop P E full cap f (s + rn.2) (decide (startType P ≠ .none) && q.nl.isEmpty) q.nl q.icase q.matched q.mp

/-- `_regexec1` (cregex_prv.c 1000-1154) with lists of `cap` elements, from position `s`. -/
def exec1 (P : Prog) (E : Env) (full : Bool) (cap s : Nat) : Option (Int × Option Match) :=
  mainLoop P E full cap (E.m.length + 2) s true [] P.icase false none

/-- `_regexec` and `_regexec2` (cregex_prv.c 1157-1230): lists of 10 elements, then of 100. `alloc` says
whether `malloc` succeeds. -/
def exec (P : Prog) (E : Env) (full : Bool) (s : Nat) (alloc : Bool) : Option (Int × Option Match) :=
  (exec1 P E full 10 s).bind fun x =>
    if 0 ≤ x.1 then some x else if alloc then exec1 P E full 100 s else some (-1, none)

end Verif.Regex
