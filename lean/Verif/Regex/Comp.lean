import Verif.Regex.Exec
import Verif.Regex.Spec
/-
Model of the compiler of regular expressions from tokens on, /repo/include/stc/priv/cregex_prv.c.

The state of the parser are the instructions allocated so far (`freep` is their number), and the two
stacks with their tops first. `none` is undefined behaviour: an instruction behind the allocated
memory, a read below the operator stack, a write through a bad pointer, a NULL pointer followed. An
error code is the outcome of `longjmp`.
-/
namespace Verif.Regex
open Spec (Tok)

/-- `cregex_result` as far as the compiler reports it (cregex.h 48-65). -/
inductive Err
  | unmatchedRight | unmatchedLeft | tooManySub | missingOperand | unknownOperator | operandOverflow | operatorOverflow | operatorUnderflow
  | tooManyClasses | malformedClass
deriving DecidableEq, Repr

/-- Undefined, an error, or a value. -/
inductive R (β : Type)
  | ub | err (e : Err) | ok (b : β)

def R.bind {β γ : Type} : R β → (β → R γ) → R γ
  | .ub, _ => .ub
  | .err e, _ => .err e
  | .ok b, f => f b

/-- `_Node` (cregex_prv.c 336-340). -/
structure Node where
  first : Nat
  last : Nat
deriving DecidableEq, Repr

/-- Operators on the stack; `bot` is `TOK_START-1`. -/
inductive Ator | bot | lbra | or | cat | star | plus | quest
deriving DecidableEq, Repr

/-- The precedence (cregex_prv.c 112-122); `TOK_START` is 1, `TOK_RBRA` is 2. -/
def Ator.prec : Ator → Nat
  | .bot => 0 | .lbra => 3 | .or => 4 | .cat => 5 | .star => 6 | .plus => 7 | .quest => 8

/-- `_NSTACK` (cregex_prv.c 342). -/
def NSTACK : Nat := 20
/-- `_NSUBEXP` (cregex_prv.c 90). -/
def NSUBEXP : Nat := 32

/-- `_newinst` (cregex_prv.c 381-388): its number and the instructions. -/
def newInst (cap : Nat) (h : List Inst) (op : Op) (next : Option Nat) : R (List Inst) :=
  if h.length < cap then .ok (h ++ [⟨op, next⟩]) else .ub

/-- `p->l.next = k`. -/
def setNext (h : List Inst) (p k : Nat) : R (List Inst) :=
  match h[p]? with
  | some i => .ok (h.set p { i with next := some k })
  | none => .ub

/-- `_pushand` (cregex_prv.c 434-442). -/
def pushand (a : List Node) (f l : Nat) : R (List Node) := if a.length < NSTACK then .ok (⟨f, l⟩ :: a) else .err .operandOverflow

/-- `_popand` (cregex_prv.c 453-464). -/
def popand (a : List Node) : R (Node × List Node) :=
  match a with
  | n :: a => .ok (n, a)
  | [] => .err .missingOperand

/-- The instructions and the operands. -/
structure Heap where
  h : List Inst
  ands : List Node
deriving DecidableEq, Repr

/-- The cases of `_evaluntil` for one operator popped with its subexpression id (cregex_prv.c 480-535). -/
def reduce (cap : Nat) (x : Heap) (t : Ator) (id : Nat) : R Heap :=
  match t with
  | .bot => .err .unknownOperator
  | .lbra =>
    (popand x.ands).bind fun (op1, a) =>
    (newInst cap x.h (.rbra id) none).bind fun h =>
    (setNext h op1.last x.h.length).bind fun h =>
    (newInst cap h (.lbra id) (some op1.first)).bind fun h =>
    (pushand a (x.h.length + 1) x.h.length).bind fun a => .ok ⟨h, a⟩
  | .or =>
    (popand x.ands).bind fun (op2, a) =>
    (popand a).bind fun (op1, a) =>
    (newInst cap x.h .nop none).bind fun h =>
    (setNext h op2.last x.h.length).bind fun h =>
    (setNext h op1.last x.h.length).bind fun h =>
    (newInst cap h (.or op1.first) (some op2.first)).bind fun h =>
    (pushand a (x.h.length + 1) x.h.length).bind fun a => .ok ⟨h, a⟩
  | .cat =>
    (popand x.ands).bind fun (op2, a) =>
    (popand a).bind fun (op1, a) =>
    (setNext x.h op1.last op2.first).bind fun h =>
    (pushand a op1.first op2.last).bind fun a => .ok ⟨h, a⟩
  | .star =>
    (popand x.ands).bind fun (op2, a) =>
    (newInst cap x.h (.or op2.first) none).bind fun h =>
    (setNext h op2.last x.h.length).bind fun h =>
    (pushand a x.h.length x.h.length).bind fun a => .ok ⟨h, a⟩
  | .plus =>
    (popand x.ands).bind fun (op2, a) =>
    (newInst cap x.h (.or op2.first) none).bind fun h =>
    (setNext h op2.last x.h.length).bind fun h =>
    (pushand a op2.first x.h.length).bind fun a => .ok ⟨h, a⟩
  | .quest =>
    (popand x.ands).bind fun (op2, a) =>
    (newInst cap x.h (.or op2.first) (some (x.h.length + 1))).bind fun h =>
    (newInst cap h .nop none).bind fun h =>
    (setNext h op2.last (x.h.length + 1)).bind fun h =>
    (pushand a x.h.length (x.h.length + 1)).bind fun a => .ok ⟨h, a⟩

/-- `_evaluntil` (cregex_prv.c 475-538) with the precedence `pri`. -/
def evaluntil (cap pri : Nat) : List (Ator × Nat) → Heap → R (List (Ator × Nat) × Heap)
  | [], _ => if pri = 2 then .err .operatorUnderflow else .ub
  | (t, id) :: ts, x =>
    if pri = 2 ∨ pri ≤ t.prec then
      (reduce cap x t id).bind fun x => if t = .lbra then .ok (ts, x) else evaluntil cap pri ts x
    else .ok ((t, id) :: ts, x)

/-- `_Parser` (cregex_prv.c 343-367), without the lexer. -/
structure PS where
  x : Heap
  ators : List (Ator × Nat)
  cursub : Nat
  lastand : Bool
  nbra : Nat
deriving DecidableEq, Repr

/-- `_pushator` (cregex_prv.c 444-451). -/
def pushator (s : PS) (t : Ator) : R PS := if s.ators.length < NSTACK then .ok { s with ators := (t, s.cursub) :: s.ators } else .err .operatorOverflow

def Ator.like : Ator → Bool
  | .star | .plus | .quest => true
  | _ => false

/-- `_operator` (cregex_prv.c 412-432) with an operator that is not a parenthesis. -/
def operator (cap : Nat) (s : PS) (t : Ator) : R PS :=
  (evaluntil cap t.prec s.ators s.x).bind fun (o, x) =>
  (pushator { s with x := x, ators := o } t).bind fun s => .ok { s with lastand := t.like }

/-- `_operator(TOK_RBRA)`. -/
def operatorR (cap : Nat) (s : PS) : R PS :=
  if s.nbra = 0 then .err .unmatchedRight
  else (evaluntil cap 2 s.ators s.x).bind fun (o, x) => .ok { s with x := x, ators := o, nbra := s.nbra - 1, lastand := true }

/-- `_operator(TOK_LBRA)`. -/
def operatorL (cap : Nat) (s : PS) : R PS :=
  if NSUBEXP ≤ s.cursub + 1 then .err .tooManySub
  else
    let s := { s with cursub := s.cursub + 1, nbra := s.nbra + 1 }
    (if s.lastand then operator cap s .cat else .ok s).bind fun s =>
    (pushator s .lbra).bind fun s => .ok { s with lastand := false }

/-- `_operand` (cregex_prv.c 390-410). -/
def operand (cap : Nat) (s : PS) (op : Op) : R PS :=
  (if s.lastand then operator cap s .cat else .ok s).bind fun s =>
  (newInst cap s.x.h op none).bind fun h =>
  (pushand s.x.ands s.x.h.length s.x.h.length).bind fun a =>
  .ok { s with x := ⟨h, a⟩, lastand := true }

/-- One round of the loop in `_regcomp1` (cregex_prv.c 905-910). -/
def token (cap : Nat) (s : PS) : Tok Op → R PS
  | .one op => operand cap s op
  | .lpar => operatorL cap s
  | .rpar => operatorR cap s
  | .bar => operator cap s .or
  | .star => operator cap s .star
  | .plus => operator cap s .plus
  | .opt => operator cap s .quest

def tokens (cap : Nat) : List (Tok Op) → PS → R PS
  | [], s => .ok s
  | t :: ts, s => (token cap s t).bind (tokens cap ts)

/-- The state before the first token (cregex_prv.c 889-904). -/
def ps0 : PS := ⟨⟨[], []⟩, [(.bot, 0)], 0, false, 0⟩

/-- `while (target->type == TOK_NOP) target = target->l.next` (cregex_prv.c 551-552). -/
def skipNop (h : List Inst) : Nat → Nat → Option Nat
  | 0, _ => none
  | f + 1, k => (h[k]?).bind fun i => if i.op = .nop then i.next.bind (skipNop h f) else some k

/-- `_optimize` without the reallocation (cregex_prv.c 541-555), which moves the instructions without
changing their numbers: the loop over the instructions up to the first `TOK_END`. Later iterations see
the changes of the earlier ones. -/
def optimize (h : List Inst) : Nat → Nat → Option (List Inst)
  | 0, _ => none
  | f + 1, k =>
    (h[k]?).bind fun i =>
      if i.op = .fin then some h
      else i.next.bind fun n => (skipNop h (h.length + 1) n).bind fun t => optimize (h.set k { i with next := some t }) f (k + 1)

/-- `_regcomp1` (cregex_prv.c 863-930) on tokens, with memory for `cap` instructions: the program and the
number of groups. -/
def compile (cap : Nat) (icase : Bool) (ts : List (Tok Op)) : R (Prog × Nat) :=
  (tokens cap ts ps0).bind fun s =>
  (evaluntil cap 1 s.ators s.x).bind fun (o, x) =>
  (operand cap { s with x := x, ators := o } .fin).bind fun s =>
  (evaluntil cap 1 s.ators s.x).bind fun (_, x) =>
  if s.nbra ≠ 0 then .err .unmatchedLeft
  else
    match x.ands with
    | [] => .ub
    | n :: _ =>
      match optimize x.h (x.h.length + 1) 0 with
      | none => .ub
      | some h => .ok (⟨h, n.first, icase⟩, s.cursub)

end Verif.Regex
