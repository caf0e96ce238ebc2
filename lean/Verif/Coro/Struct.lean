import Verif.Coro.Model
/-
Model of coroutine functions as they are written: structured code with the macros inside of branches and
loops (include/stc/coroutine.h 93-157). A suspended coroutine keeps nothing but its state variable and its
members; the next call jumps from the `switch` of `cco_routine` to the `case` label behind the macro, into
the middle of whatever loops and branches are around it. `act` and the conditions stand for any user code
that does not suspend; local variables that do not survive a suspension are not modelled.
-/
namespace Verif.Coro
variable {σ : Type}

/-- `CCO_AWAIT` (coroutine.h 71) as a value of type `int`. -/
def vAWAIT : BitVec 32 := 1#32 <<< 29

/-- Statements of a coroutine function. Conditions can have effects. -/
inductive Stmt (σ : Type) where
  | act (f : σ → σ)
  | seq (a b : Stmt σ)
  | ite (c : σ → σ × Bool) (a b : Stmt σ)
  | loop (c : σ → σ × Bool) (a : Stmt σ)
  | brk
  | cont
  /-- `cco_yield_v(v)` (coroutine.h 127-131) -/
  | yield (line : Nat) (v : BitVec 32)
  /-- `cco_await(until)` (coroutine.h 140-144) -/
  | await (line : Nat) (u : σ → σ × Bool)
  /-- `cco_await_coroutine(call, bits)` (coroutine.h 149-156) -/
  | call (line : Nat) (f : σ → σ × BitVec 32) (bits : BitVec 32)
  /-- `cco_return` (coroutine.h 120-124) -/
  | ret
  /-- `cco_yield_final_v(v)` (coroutine.h 134-138) -/
  | yieldFinal (v : BitVec 32)

/-- `cco_routine (co) { body; cco_finally: fin }` (coroutine.h 93-96, 114-116). -/
structure Routine (σ : Type) where
  body : Stmt σ
  fin : Stmt σ

/-- What is still to be executed of the block: a statement, the test at the end of a loop, the assignment
of `cco_finally` (coroutine.h 115). -/
inductive Frame (σ : Type) where
  | stmt (s : Stmt σ)
  | back (c : σ → σ × Bool) (a : Stmt σ)
  | final

/-- `break`: behind the innermost loop; outside of any loop it leaves the `switch` (coroutine.h 96). -/
def breakTo : List (Frame σ) → List (Frame σ)
  | [] => []
  | .back _ _ :: k => k
  | _ :: k => breakTo k

/-- `continue`: to the test of the innermost loop; outside of any loop it leaves the `for` (coroutine.h
94-95). -/
def contTo : List (Frame σ) → List (Frame σ)
  | [] => []
  | .back c a :: k => .back c a :: k
  | _ :: k => contTo k

/-- The `case` label of a line inside of a statement, and what follows it there (coroutine.h 130, 143, 152);
`k` follows the statement. -/
def find (n : Nat) : Stmt σ → List (Frame σ) → Option (List (Frame σ))
  | .seq a b, k => (find n a (.stmt b :: k)).or (find n b k)
  | .ite _ a b, k => (find n a k).or (find n b k)
  | .loop c a, k => find n a (.back c a :: k)
  | .yield m _, k => if m = n then some k else none
  | .await m u, k => if m = n then some (.stmt (.await m u) :: k) else none
  | .call m f b, k => if m = n then some (.stmt (.call m f b) :: k) else none
  | _, _ => none

/-- The jump of the `switch` (coroutine.h 96); without a matching label the block is left. -/
def jump (p : Routine σ) (st : Int) : List (Frame σ) :=
  if st = 0 then [.stmt p.body, .final, .stmt p.fin]
  else if st = FINALLY then [.stmt p.fin]
  else if 0 < st then ((find st.toNat p.body [.final, .stmt p.fin]).or (find st.toNat p.fin [])).getD []
  else []

/-- Inside a call of the coroutine function, or returned from it. -/
inductive Cfg (σ : Type) where
  | run (k : List (Frame σ)) (st : Int) (d : σ)
  | out (st : Int) (d : σ) (v : BitVec 32)

/-- One step of a call (coroutine.h 93-156). At the end of the block the state becomes `CCO_STATE_DONE` (95)
and the function returns 0, as all examples do. -/
def kstep (p : Routine σ) : List (Frame σ) → Int → σ → Cfg σ
  | [], _, d => .out DONE d 0
  | .final :: k, _, d => .run k FINALLY d
  | .back c a :: k, st, d => .run (.stmt (.loop c a) :: k) st d
  | .stmt s :: k, st, d =>
    match s with
    | .act f => .run k st (f d)
    | .seq a b => .run (.stmt a :: .stmt b :: k) st d
    | .ite c a b => .run (.stmt (if (c d).2 then a else b) :: k) st (c d).1
    | .loop c a => if (c d).2 then .run (.stmt a :: .back c a :: k) st (c d).1 else .run k st (c d).1
    | .brk => .run (breakTo k) st d
    | .cont => .run (contTo k) st d
    | .yield n v => .out n d v
    | .await n u => if (u d).2 then .run k n (u d).1 else .out n (u d).1 vAWAIT
    | .call n f bits => if (f d).2 &&& ~~~bits ≠ 0 then .out n (f d).1 (f d).2 else .run k n (f d).1
    | .ret => .run (jump p (stopState st)) (stopState st) d
    | .yieldFinal v => .out (stopState st) d v

/-- The steps of a call until it returns; `none` if the user code goes on longer than `f` steps. -/
def runK (p : Routine σ) : Nat → Cfg σ → Option (Int × σ × BitVec 32)
  | _, .out st d v => some (st, d, v)
  | 0, .run _ _ _ => none
  | f + 1, .run k st d => runK p f (kstep p k st d)

/-- One call of the coroutine function (coroutine.h 93-96). -/
def callCo (p : Routine σ) (f : Nat) (st : Int) (d : σ) : Option (Int × σ × BitVec 32) :=
  if st = DONE then some (DONE, d, 0) else runK p f (.run (jump p st) st d)

end Verif.Coro
