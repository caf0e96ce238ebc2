import Verif.Regex.Replace
/-
The matcher with loops that may not end. The functions of Exec.lean bound their loops by a number of
rounds, and running out of rounds looks there like undefined behaviour. Here it is told apart: the
outer `none` is a loop that has not ended in the given number of rounds, `some none` is undefined
behaviour.
-/
namespace Verif.Regex
open Verif.Utf8 (Byte)

/-- Continue with a value that must be there. -/
def req {α β : Type} (x : Option α) (f : α → Option (Option β)) : Option (Option β) :=
  match x with
  | none => some none
  | some a => f a

/-- `chain` (cregex_prv.c 1071-1145). -/
def chainT (P : Prog) (E : Env) (full : Bool) (cap d cur s : Nat) : Nat → Nat → Se → Mid → Option (Option Out)
  | 0, _, _, _ => none
  | f + 1, pc, se, q =>
    req (P.insts[pc]?) fun i =>
    req (eff E s q.r q.icase i.op) fun x =>
    let q := { q with r := x.1, icase := x.2.1 }
    match x.2.2 with
    | .go => req i.next fun k => chainT P E full cap d cur s f k se q
    | .die => some (some (.ok q))
    | .eat => req i.next fun k => some (eat cap k se q)
    | .opening k => req i.next fun n => chainT P E full cap d cur s f n (setBuf se k s) q
    | .closing k => req (setSize se k s) fun se => req i.next fun n => chainT P E full cap d cur s f n se q
    | .fork right => req (fork cap d cur right se q) fun o =>
        match o with
        | .full => some (some .full)
        | .ok q => req i.next fun k => chainT P E full cap d cur s f k se q
    | .fin => some (finish E full s se q)

/-- `threads` (cregex_prv.c 1070-1146), with `n` rounds for the inner loop. -/
def threadsT (P : Prog) (E : Env) (full : Bool) (n cap s : Nat) : Nat → Nat → List Thread → Mid → Option (Option Out)
  | 0, _, _, _ => none
  | _ + 1, _, [], q => some (some (.ok q))
  | f + 1, d, t :: ts, q =>
    (chainT P E full cap d t.inst s n t.inst t.se { q with pend := ts }).bind fun o =>
    req o fun o =>
      match o with
      | .full => some (some .full)
      | .ok q => threadsT P E full n cap s f (d + 1) q.pend q

/-- `findByte` (cregex_prv.c 216-250). -/
def findByteT (m : List Byte) (p : Byte → Bool) : Nat → Nat → Option (Option (Option Nat))
  | 0, _ => none
  | f + 1, s => req (m[s]?) fun b => if p b then some (some (some s)) else if b = 0#8 then some (some none) else findByteT m p f (s + 1)

/-- `startCheck` (cregex_prv.c 1033-1054). -/
def startCheckT (E : Env) (n : Nat) (st : Start) (s : Nat) : Option (Option (Option Nat)) :=
  match st with
  | .none => some (some (some s))
  | .chr c => (findByteT E.m (fun b => b.toNat == c) n s).map fun o => o.bind fun p => some (if some s = E.eol then Option.none else p)
  | .ichr c => (findByteT E.m (fun b => b != 0#8 && lowerAscii b.toNat == lowerAscii c) n s).map fun o => o.bind fun p => some (if some s = E.eol then Option.none else p)
  | .bol =>
    if s = E.bol then some (some (some s))
    else (findByteT E.m (fun b => b.toNat == 10) n s).map fun o => o.bind fun p => some (if some s = E.eol then Option.none else p.map (· + 1))

/-- `seek`. -/
def seekT (P : Prog) (E : Env) (n : Nat) (check : Bool) (s : Nat) : Option (Option (Option Nat)) := if check then startCheckT E n (startType P) s else some (some (some s))

/-- `mainLoop` (cregex_prv.c 1030-1151), with `n` rounds for every loop inside of it. -/
def mainLoopT (P : Prog) (E : Env) (full : Bool) (n cap : Nat) : Nat → Nat → Bool → List Thread → Bool → Bool → Option Match → Option (Option (Int × Option Match))
  | 0, _, _, _, _, _, _ => none
  | f + 1, s, check, tl, ic, matched, mp =>
    (seekT P E n check s).bind fun o =>
    req o fun o =>
    match o with
    | none => some (some (if matched then 1 else 0, mp))
    | some s =>
      req (rune E.m s) fun rn =>
      req (inject P cap matched tl s) fun tl =>
      (threadsT P E full n cap s n 0 tl ⟨rn.1, ic, [], [], matched, mp⟩).bind fun o =>
      req o fun o =>
      match o with
      | .full => some (some (-1, none))
      | .ok q =>
        if some s = E.eol ∨ q.r = 0 then some (some (if q.matched then 1 else 0, q.mp))
        else mainLoopT P E full n cap f (s + rn.2) (decide (startType P ≠ .none) && q.nl.isEmpty) q.nl q.icase q.matched q.mp

/-- `_regexec` and `_regexec2` (cregex_prv.c 1157-1230), with `n` rounds for every loop. -/
def execT (P : Prog) (E : Env) (full : Bool) (n s : Nat) (alloc : Bool) : Option (Option (Int × Option Match)) :=
  (mainLoopT P E full n 10 n s true [] P.icase false none).bind fun x =>
  req x fun x =>
    if 0 ≤ x.1 then some (some x) else if alloc then mainLoopT P E full n 100 n s true [] P.icase false none else some (some (-1, none))

end Verif.Regex
