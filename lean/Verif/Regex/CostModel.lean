import Verif.Regex.Replace
/-
The matcher with a count of its work (cregex_prv.c 1000-1230): every instruction executed for a thread,
every character decoded, and every byte looked at by the fast search for the first character counts 1.
(One instruction searches a list of at most 100 threads and at most the spans of one class.) The functions
are those of Exec.lean and Replace.lean with a second result; `execC_fst` and `iterC_fst` (Work.lean) show
that the first result is the same.
-/
namespace Verif.Regex
open Verif.Utf8 (Byte)

/-- `n` more units of work. -/
def tick {β : Type} (n : Nat) (x : Option (β × Nat)) : Option (β × Nat) := x.map fun y => (y.1, y.2 + n)

/-- `chain` (cregex_prv.c 1071-1145) with the number of instructions executed. -/
def chainC (P : Prog) (E : Env) (full : Bool) (cap d cur s : Nat) : Nat → Nat → Se → Mid → Option (Out × Nat)
  | 0, _, _, _ => none
  | f + 1, pc, se, q =>
    (P.insts[pc]?).bind fun i =>
    (eff E s q.r q.icase i.op).bind fun x =>
    let q := { q with r := x.1, icase := x.2.1 }
    match x.2.2 with
    | .go => i.next.bind fun k => tick 1 (chainC P E full cap d cur s f k se q)
    | .die => some (.ok q, 1)
    | .eat => i.next.bind fun k => (eat cap k se q).map (·, 1)
    | .opening k => i.next.bind fun n => tick 1 (chainC P E full cap d cur s f n (setBuf se k s) q)
    | .closing k => (setSize se k s).bind fun se => i.next.bind fun n => tick 1 (chainC P E full cap d cur s f n se q)
    | .fork right => (fork cap d cur right se q).bind fun o =>
        match o with
        | .full => some (.full, 1)
        | .ok q => i.next.bind fun k => tick 1 (chainC P E full cap d cur s f k se q)
    | .fin => (finish E full s se q).map (·, 1)

/-- `threads` (cregex_prv.c 1070-1146) with the number of instructions executed. -/
def threadsC (P : Prog) (E : Env) (full : Bool) (cap s : Nat) : Nat → Nat → List Thread → Mid → Option (Out × Nat)
  | 0, _, _, _ => none
  | _ + 1, _, [], q => some (.ok q, 0)
  | f + 1, d, t :: ts, q =>
    (chainC P E full cap d t.inst s (P.insts.length + 1) t.inst t.se { q with pend := ts }).bind fun o =>
      match o.1 with
      | .full => some (.full, o.2)
      | .ok q => tick o.2 (threadsC P E full cap s f (d + 1) q.pend q)

/-- `findByte` (cregex_prv.c 216-250) with the number of bytes read. -/
def findByteC (m : List Byte) (p : Byte → Bool) : Nat → Nat → Option (Option Nat × Nat)
  | 0, _ => none
  | f + 1, s => (m[s]?).bind fun b => if p b then some (some s, 1) else if b = 0#8 then some (none, 1) else tick 1 (findByteC m p f (s + 1))

/-- `startCheck` (cregex_prv.c 1033-1054) with the number of bytes read. -/
def startCheckC (E : Env) (st : Start) (s : Nat) : Option (Option Nat × Nat) :=
  match st with
  | .none => some (some s, 0)
  | .chr c => (findByteC E.m (fun b => b.toNat == c) (E.m.length + 1) s).bind fun p => some (if some s = E.eol then Option.none else p.1, p.2)
  | .ichr c => (findByteC E.m (fun b => b != 0#8 && lowerAscii b.toNat == lowerAscii c) (E.m.length + 1) s).bind fun p => some (if some s = E.eol then Option.none else p.1, p.2)
  | .bol =>
    if s = E.bol then some (some s, 0)
    else (findByteC E.m (fun b => b.toNat == 10) (E.m.length + 1) s).bind fun p => some (if some s = E.eol then Option.none else p.1.map (· + 1), p.2)

/-- `seek` with the number of bytes read. -/
def seekC (P : Prog) (E : Env) (check : Bool) (s : Nat) : Option (Option Nat × Nat) := if check then startCheckC E (startType P) s else some (some s, 0)

/-- `mainLoop` (cregex_prv.c 1030-1151) with the work done. -/
def mainLoopC (P : Prog) (E : Env) (full : Bool) (cap : Nat) : Nat → Nat → Bool → List Thread → Bool → Bool → Option Match → Option ((Int × Option Match) × Nat)
  | 0, _, _, _, _, _, _ => none
  | f + 1, s, check, tl, ic, matched, mp =>
    (seekC P E check s).bind fun o =>
    match o.1 with
    | none => some ((if matched then 1 else 0, mp), o.2)
    | some s =>
      (rune E.m s).bind fun rn =>
      (inject P cap matched tl s).bind fun tl =>
      (threadsC P E full cap s (cap + 1) 0 tl ⟨rn.1, ic, [], [], matched, mp⟩).bind fun y =>
      match y.1 with
      | .full => some ((-1, none), o.2 + 1 + y.2)
      | .ok q =>
        if some s = E.eol ∨ q.r = 0 then some ((if q.matched then 1 else 0, q.mp), o.2 + 1 + y.2)
        else tick (o.2 + 1 + y.2) (mainLoopC P E full cap f (s + rn.2) (decide (startType P ≠ .none) && q.nl.isEmpty) q.nl q.icase q.matched q.mp)

/-- `exec1` (cregex_prv.c 1000-1154) with the work done. -/
def exec1C (P : Prog) (E : Env) (full : Bool) (cap s : Nat) : Option ((Int × Option Match) × Nat) :=
  mainLoopC P E full cap (E.m.length + 2) s true [] P.icase false none

/-- `exec` (cregex_prv.c 1157-1230) with the work done. -/
def execC (P : Prog) (E : Env) (full : Bool) (s : Nat) (alloc : Bool) : Option ((Int × Option Match) × Nat) :=
  (exec1C P E full 10 s).bind fun x =>
    if 0 ≤ x.1.1 then some x else if alloc then tick x.2 (exec1C P E full 100 s) else some ((-1, none), x.2)

/-- `iterLoop` (cregex.h 86-88, 136-138) with the work done. -/
def iterC (P : Prog) (E : Env) (alloc : Bool) : Nat → Nat → Option ((List Match × Bool) × Nat)
  | 0, _ => some (([], false), 0)
  | f + 1, at_ =>
    (execC P { E with eol := none } false at_ alloc).bind fun res =>
      match res.1 with
      | (1, some x) => if x.stop = x.start then some (([], true), res.2) else (iterC P E alloc f x.stop).map fun y => ((x :: y.1.1, y.1.2), y.2 + res.2)
      | (1, none) => none
      | _ => some (([], true), res.2)

end Verif.Regex
