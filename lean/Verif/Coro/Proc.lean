import Verif.Coro.Model
/-
Model of a fiber whose tasks are functions as they are written (include/stc/coroutine.h 93-131, 172-237,
276-303): tasks that await other tasks, throw errors and recover from them. Every `cco_await_task` awaits a
freshly initialised task, with no await bits (`cco_await_task_2`); what awaiting bits do is modelled in
Task.lean, `cco_await` and `cco_await_coroutine` in Struct.lean. Several fibers appear only as what others do
between two turns of this one.
-/
namespace Verif.Coro.Proc
variable {σ : Type}

/-- Statements of a task function. Conditions see `fb->error` and the data. -/
inductive Stmt (σ : Type) where
  | act (f : σ → σ)
  | seq (a b : Stmt σ)
  | ite (c : Int → σ → Bool) (a b : Stmt σ)
  | loop (c : Int → σ → Bool) (a : Stmt σ)
  | brk
  | cont
  /-- `cco_yield_v(v)` (coroutine.h 127-131) -/
  | yield (line : Nat) (v : BitVec 32)
  /-- `cco_await_task(t, fb)` (coroutine.h 218-226) for a new task running the function chosen -/
  | await (line : Nat) (c : σ → Nat)
  /-- `cco_return` (coroutine.h 120-124) -/
  | ret
  /-- `cco_throw_error(e, fb)` (coroutine.h 99-104) -/
  | throw (e : Int)
  /-- `cco_recover_error(fb)` (coroutine.h 106-112) -/
  | recover

/-- A task function: `cco_routine (self) { body; cco_finally: fin }` (coroutine.h 93-96, 114-116). -/
structure Task (σ : Type) where
  body : Stmt σ
  fin : Stmt σ

/-- What is still to be executed of the block of a task function. -/
inductive Frame (σ : Type) where
  | stmt (s : Stmt σ)
  | back (c : Int → σ → Bool) (a : Stmt σ)
  | final

/-- `break` (C): behind the innermost loop, else out of the `switch` (coroutine.h 96). -/
def breakTo : List (Frame σ) → List (Frame σ)
  | [] => []
  | .back _ _ :: k => k
  | _ :: k => breakTo k

/-- `continue` (C): to the test of the innermost loop, else out of the `for` (coroutine.h 94-95). -/
def contTo : List (Frame σ) → List (Frame σ)
  | [] => []
  | .back c a :: k => .back c a :: k
  | _ :: k => contTo k

/-- The `case` label of a line inside of a statement and what follows it (coroutine.h 130). -/
def find (n : Nat) : Stmt σ → List (Frame σ) → Option (List (Frame σ))
  | .seq a b, k => (find n a (.stmt b :: k)).or (find n b k)
  | .ite _ a b, k => (find n a k).or (find n b k)
  | .loop c a, k => find n a (.back c a :: k)
  | .yield m _, k => if m = n then some k else none
  | .await m _, k => if m = n then some k else none
  | _, _ => none

/-- The jump of the `switch` (coroutine.h 96). -/
def jump (p : Task σ) (st : Int) : List (Frame σ) :=
  if st = 0 then [.stmt p.body, .final, .stmt p.fin]
  else if st = FINALLY then [.stmt p.fin]
  else if 0 < st then ((find st.toNat p.body [.final, .stmt p.fin]).or (find st.toNat p.fin [])).getD []
  else []

/-- A fiber: inside of a task function (what is left of it, which function, its `cco.state`, the tasks
waiting for it with their states, `fb->error`, `fb->recover_state`, the data); between two turns (the tasks
from `fb->task` on, `fb->error` is 0); done; ended by an unhandled error; stopped by `c_assert`. -/
inductive Cfg (σ : Type) where
  | run (k : List (Frame σ)) (r : Nat) (st : Int) (ps : List (Nat × Int)) (err rec : Int) (d : σ)
  | pause (ps : List (Nat × Int)) (rec : Int) (d : σ)
  | done (d : σ)
  | abort (e : Int) (d : σ)
  | assert

/-- A task function returned to `cco_resume_current` with an error set, or with 0 (coroutine.h 281-291):
with an error the parent is stopped and resumed at once; without, the fiber yields and the parent goes on at
its next turn. The fiber ends when there is no parent (293-298). -/
def leave (P : Nat → Task σ) (ps : List (Nat × Int)) (err rec : Int) (d : σ) : Cfg σ :=
  match ps with
  | [] => if err ≠ 0 then .abort err d else .done d
  | (p, s) :: qs =>
    if err ≠ 0 then .run (jump (P p) (stopState s)) p (stopState s) qs err s d
    else .pause ((p, s) :: qs) rec d

/-- One step inside of a task function, up to and including what `cco_resume_current` does when it returns
(coroutine.h 93-131, 218-226, 276-303). -/
def kstep (P : Nat → Task σ) (k : List (Frame σ)) (r : Nat) (st : Int) (ps : List (Nat × Int)) (err rec : Int) (d : σ) : Cfg σ :=
  match k with
  | [] => leave P ps err rec d
  | .final :: k => .run k r FINALLY ps err rec d
  | .back c a :: k => .run (.stmt (.loop c a) :: k) r st ps err rec d
  | .stmt s :: k =>
    match s with
    | .act f => .run k r st ps err rec (f d)
    | .seq a b => .run (.stmt a :: .stmt b :: k) r st ps err rec d
    | .ite c a b => .run (.stmt (if c err d then a else b) :: k) r st ps err rec d
    | .loop c a => if c err d then .run (.stmt a :: .back c a :: k) r st ps err rec d else .run k r st ps err rec d
    | .brk => .run (breakTo k) r st ps err rec d
    | .cont => .run (contTo k) r st ps err rec d
    | .yield n v => if err ≠ 0 ∨ v = 0 then leave P ps err rec d else .pause ((r, (n : Int)) :: ps) rec d
    | .await n c => if err ≠ 0 then leave P ps err rec d else .pause ((c d, 0) :: (r, (n : Int)) :: ps) rec d
    | .ret => .run (jump (P r) (stopState st)) r (stopState st) ps err rec d
    | .throw e => .run (jump (P r) (stopState st)) r (stopState st) ps e rec d
    | .recover => if st = FINALLY then .run (jump (P r) rec) r rec ps 0 rec d else .assert

/-- One step of the fiber together with what others will do between its turns; `none` when it is over, or
there is no further turn (coroutine.h 276-303). -/
def step (P : Nat → Task σ) : Cfg σ × List (σ → σ) → Option (Cfg σ × List (σ → σ))
  | (.run k r st ps err rec d, w) => some (kstep P k r st ps err rec d, w)
  | (.pause ((r, st) :: ps) rec d, g :: w) => some (.run (jump (P r) st) r st ps 0 rec (g d), w)
  | _ => none

/-- The steps of the fiber; `none` if it is not over within `f` steps (coroutine.h 276-303). -/
def play (P : Nat → Task σ) : Nat → Cfg σ × List (σ → σ) → Option (Cfg σ × List (σ → σ))
  | f, x =>
    match step P x with
    | none => some x
    | some y =>
      match f with
      | 0 => none
      | f + 1 => play P f y

/-- The first turn of a new fiber (coroutine.h 315-318). -/
def start (P : Nat → Task σ) (r : Nat) (d : σ) : Cfg σ := .run (jump (P r) 0) r 0 [] 0 0 d

end Verif.Coro.Proc
