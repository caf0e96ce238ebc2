import Verif.Base
/-
Model of the control-flow macros: the scopes `c_defer` and `c_with`, the loops `c_each_kv` and
`c_items` (/repo/include/stc/common.h) and the matching of sum types, `c_when`, `c_is`, `c_or_is`,
`c_otherwise` (/repo/include/stc/sys/sumtype.h).

The macros are written out into a small core of C statements: `for` loops, `if` and `switch` with
labels and fall-through. The user's code between the macros is an arbitrary statement: a function from
the program state to how it ended and the new state; `none` is undefined behaviour or a statement
that does not end. The loop variables the macros declare are kept beside the user's state, which
the user's code cannot reach them from. `goto` and `longjmp` are not modelled.
-/
namespace Verif.Control

/-- How a C statement ends: normally, by `break`, by `continue`, or by `return`. -/
inductive Out where
  | norm | brk | cont | ret
deriving DecidableEq, Repr

/-- A C statement. -/
abbrev Stmt (σ : Type) := σ → Option (Out × σ)

variable {σ : Type}

/-- The empty statement. -/
def skip : Stmt σ := fun s => some (.norm, s)

/-- `break;`. -/
def brk : Stmt σ := fun s => some (.brk, s)

/-- A C `for` loop with its test (which may have effects), its step and its body; the number bounds
the iterations. -/
def forC (cond : σ → Option (Bool × σ)) (step : σ → Option σ) (body : Stmt σ) : Nat → Stmt σ
  | 0, _ => none
  | f + 1, s => (cond s).bind fun r =>
    if r.1 then (body r.2).bind fun e =>
      match e.1 with
      | .brk => some (.norm, e.2)
      | .ret => some (.ret, e.2)
      | _ => (step e.2).bind (forC cond step body f)
    else some (.norm, r.2)

/-- The user's statement beside a variable of the macro. -/
def beside {τ : Type} (body : Stmt σ) : Stmt (τ × σ) := fun s => (body s.2).map fun e => (e.1, (s.1, e.2))

/-- A statement with a variable of its own. -/
def local' {τ : Type} (x : τ) (body : Stmt (τ × σ)) : Stmt σ := fun s => (body (x, s)).map fun e => (e.1, e.2.2)

/-! ### scopes -/

/-- common.h:238-239 `c_defer(deinit) body`: `for (int i = 0; i++ == 0; deinit) body`. -/
def cDefer (deinit : σ → Option σ) (body : Stmt σ) : Stmt σ :=
  local' (0 : Nat) (forC (fun s => some (s.1 == 0, (s.1 + 1, s.2)))
    (fun s => (deinit s.2).map (s.1, ·)) (beside body) 3)

/-- common.h:244-245 `c_with(init, condition, deinit) body`, and with a true condition common.h:242-243
`c_with(init, deinit) body`. -/
def cWith (init : σ → Option σ) (cond : σ → Bool) (deinit : σ → Option σ) (body : Stmt σ) : Stmt σ :=
  local' (0 : Nat) (forC (fun s => some (s.1 == 0, s)) some
    (fun s => (init s.2).bind fun t =>
      forC (fun s => some (s.1 == 0 && cond s.2, (s.1 + 1, s.2)))
        (fun s => (deinit s.2).map (s.1, ·)) (beside body) 3 (s.1, t)) 3)

/-! ### loops -/

/-- common.h:189-194 `_c_each_kv`: three nested loops; the state beside the user's is whether `key` is
a null pointer, and the entries the iterator has left. `body e` is the user's statement with `key` and
`val` pointing to the entry `e`. -/
def eachKv {ε : Type} (l : List ε) (body : ε → Stmt σ) : Stmt σ :=
  local' (true, l) (forC (fun s => some (s.1.1, s)) some
    (forC (fun s => some (s.1.1, s)) (fun s => some ((false, s.1.2), s.2))
      (forC (fun s => some (!s.1.2.isEmpty, s)) (fun s => some ((s.1.1, s.1.2.tail), s.2))
        (fun s => (s.1.2.head?).bind fun e => beside (body e) s) (l.length + 1)) 3) 3)

/-- common.h:196-199 `c_items`: over the elements of an array; the variables are `ref` (an index into
the array) and `index`. -/
def items {ε : Type} (l : List ε) (body : ε → Stmt σ) : Stmt σ :=
  local' (0, 0) (forC (fun s => some (decide (s.1.2 < l.length), s))
    (fun s => some ((s.1.1 + 1, s.1.2 + 1), s.2))
    (fun s => (l[s.1.1]?).bind fun e => beside (body e) s) (l.length + 1))

/-- common.h:230-231 `c_drop(C, ...)`. -/
def dropAll {ε : Type} (l : List ε) (drop : ε → σ → Option σ) : Stmt σ :=
  items l fun e s => (drop e s).map (Out.norm, ·)

/-! ### sum types -/

/-- An item of the body of a `switch`. -/
inductive Item (σ : Type) where
  | case (t : Int)
  | dflt
  | stmt (s : Stmt σ)

/-- Whether an item is the label of a tag. -/
def Item.isCase (t : Int) : Item σ → Bool
  | .case u => u == t
  | _ => false

/-- Whether an item is the `default` label. -/
def Item.isDflt : Item σ → Bool
  | .dflt => true
  | _ => false

/-- The statements from a label on: labels are passed over; anything but a normal end leaves. -/
def runItems : List (Item σ) → Stmt σ
  | [], s => some (.norm, s)
  | .stmt b :: l, s => (b s).bind fun e => if e.1 = .norm then runItems l e.2 else some e
  | _ :: l, s => runItems l s

/-- A C `switch`: from the label of the value, else from `default`, else nothing; `break` ends it. -/
def switchC (t : Int) (l : List (Item σ)) : Stmt σ := fun s =>
  (runItems (match l.dropWhile (fun i => !i.isCase t) with
    | [] => l.dropWhile (fun i => !i.isDflt)
    | l' => l') s).map fun e => (if e.1 = .brk then .norm else e.1, e.2)

/-- `for (T* x = p; x; x = NULL) body` with a non-null `p` (`c_when(NULL)` and `c_is(NULL, ..)` run nothing). -/
def once (body : Stmt σ) : Stmt σ :=
  local' true (forC (fun s => some (s.1, s)) (fun s => some (false, s.2)) (beside body) 3)

/-- What the user writes inside `c_when`. -/
inductive Arm (σ : Type) where
  /-- sumtype.h:141-142 `c_is(Tag) body` -/
  | is1 (t : Int) (body : Stmt σ)
  /-- sumtype.h:113-115, 128-130 `c_is(Tag, x) body` -/
  | is2 (t : Int) (body : Stmt σ)
  /-- sumtype.h:144-145 `c_or_is(Tag) body` -/
  | orIs (t : Int) (body : Stmt σ)
  /-- sumtype.h:147-148 `c_otherwise body` -/
  | other (body : Stmt σ)

/-- The text the macros expand to. -/
def Arm.expand : Arm σ → List (Item σ)
  | .is1 t b => [.stmt brk, .case t, .stmt b]
  | .is2 t b => [.stmt brk, .case t, .stmt (once b)]
  | .orIs t b => [.stmt skip, .case t, .stmt b]
  | .other b => [.stmt brk, .dflt, .stmt b]

/-- sumtype.h:109-111, 123-126 `c_when(varptr) { arms }`; `tag` reads the tag of the value. -/
def cWhen (tag : σ → Int) (arms : List (Arm σ)) : Stmt σ :=
  once fun s => switchC (tag s) (arms.flatMap Arm.expand) s

/-- sumtype.h:117-120, 132-135: `if (c_is(varptr, Tag, x)) body else els`, that is
`if (false) ; else for (vp2) if (c_holds(vp2, Tag)) for (x) body else els`. -/
def cIs (tag : σ → Int) (t : Int) (body els : Stmt σ) : Stmt σ :=
  once fun s => if tag s = t then once body s else els s

/-- sumtype.h:94, 101: the enumerators of a sum type with the given number of variants. -/
def tags (n : Nat) : List Int := (List.range n).map fun i : Nat => (i : Int) + 1

end Verif.Control
