import Verif.Coro.Struct
/-
What coroutine functions mean: the same code as an ordinary function, which at a suspension point waits for
the world and goes on. No labels and no state variable.
-/
namespace Verif.Coro.Spec
variable {σ : Type}

/-- One suspension as seen by the caller: the value returned, what others do with the members until the next
call, and whether the coroutine was stopped meanwhile. -/
structure Pause (σ : Type) where
  v : BitVec 32
  g : σ → σ
  stopped : Bool

/-- How a statement ends; `susp` if the coroutine has not been called again. -/
inductive Out where
  | norm | brk | cont | ret
  | susp (v : BitVec 32)

/-- Executing a statement: the suspensions passed, the members afterwards, how it ends. A stopped coroutine
returns at the suspension point. -/
inductive Exec : Stmt σ → σ → List (Pause σ) → σ → Out → Prop
  | act {f : σ → σ} {d : σ} : Exec (.act f) d [] (f d) .norm
  | seq {a b : Stmt σ} {d d1 d2 : σ} {t1 t2 : List (Pause σ)} {o : Out} : Exec a d t1 d1 .norm → Exec b d1 t2 d2 o → Exec (.seq a b) d (t1 ++ t2) d2 o
  | seqEnd {a b : Stmt σ} {d d1 : σ} {t : List (Pause σ)} {o : Out} : Exec a d t d1 o → o ≠ .norm → Exec (.seq a b) d t d1 o
  | ite {c : σ → σ × Bool} {a b : Stmt σ} {d d1 : σ} {t : List (Pause σ)} {o : Out} : Exec (if (c d).2 then a else b) (c d).1 t d1 o → Exec (.ite c a b) d t d1 o
  | loopEnd {c : σ → σ × Bool} {a : Stmt σ} {d : σ} : (c d).2 = false → Exec (.loop c a) d [] (c d).1 .norm
  | loopGo {c : σ → σ × Bool} {a : Stmt σ} {d d1 d2 : σ} {t1 t2 : List (Pause σ)} {o1 o : Out} : (c d).2 = true → Exec a (c d).1 t1 d1 o1 → o1 = .norm ∨ o1 = .cont →
      Exec (.loop c a) d1 t2 d2 o → Exec (.loop c a) d (t1 ++ t2) d2 o
  | loopBrk {c : σ → σ × Bool} {a : Stmt σ} {d d1 : σ} {t : List (Pause σ)} : (c d).2 = true → Exec a (c d).1 t d1 .brk → Exec (.loop c a) d t d1 .norm
  | loopRet {c : σ → σ × Bool} {a : Stmt σ} {d d1 : σ} {t : List (Pause σ)} : (c d).2 = true → Exec a (c d).1 t d1 .ret → Exec (.loop c a) d t d1 .ret
  | loopSusp {c : σ → σ × Bool} {a : Stmt σ} {d d1 : σ} {t : List (Pause σ)} {v : BitVec 32} : (c d).2 = true → Exec a (c d).1 t d1 (.susp v) → Exec (.loop c a) d t d1 (.susp v)
  | brk {d : σ} : Exec .brk d [] d .brk
  | cont {d : σ} : Exec .cont d [] d .cont
  | ret {d : σ} : Exec .ret d [] d .ret
  | yieldSusp {n : Nat} {v : BitVec 32} {d : σ} : Exec (.yield n v) d [] d (.susp v)
  | yield {n : Nat} {v : BitVec 32} {d : σ} {g : σ → σ} : Exec (.yield n v) d [⟨v, g, false⟩] (g d) .norm
  | yieldStop {n : Nat} {v : BitVec 32} {d : σ} {g : σ → σ} : Exec (.yield n v) d [⟨v, g, true⟩] (g d) .ret
  | awaitGo {n : Nat} {u : σ → σ × Bool} {d : σ} : (u d).2 = true → Exec (.await n u) d [] (u d).1 .norm
  | awaitSusp {n : Nat} {u : σ → σ × Bool} {d : σ} : (u d).2 = false → Exec (.await n u) d [] (u d).1 (.susp vAWAIT)
  | awaitAgain {n : Nat} {u : σ → σ × Bool} {d d1 : σ} {g : σ → σ} {t : List (Pause σ)} {o : Out} : (u d).2 = false → Exec (.await n u) (g (u d).1) t d1 o →
      Exec (.await n u) d (⟨vAWAIT, g, false⟩ :: t) d1 o
  | awaitStop {n : Nat} {u : σ → σ × Bool} {d : σ} {g : σ → σ} : (u d).2 = false → Exec (.await n u) d [⟨vAWAIT, g, true⟩] (g (u d).1) .ret
  | callGo {n : Nat} {f : σ → σ × BitVec 32} {bits : BitVec 32} {d : σ} : (f d).2 &&& ~~~bits = 0 → Exec (.call n f bits) d [] (f d).1 .norm
  | callSusp {n : Nat} {f : σ → σ × BitVec 32} {bits : BitVec 32} {d : σ} : (f d).2 &&& ~~~bits ≠ 0 → Exec (.call n f bits) d [] (f d).1 (.susp (f d).2)
  | callAgain {n : Nat} {f : σ → σ × BitVec 32} {bits : BitVec 32} {d d1 : σ} {g : σ → σ} {t : List (Pause σ)} {o : Out} : (f d).2 &&& ~~~bits ≠ 0 →
      Exec (.call n f bits) (g (f d).1) t d1 o → Exec (.call n f bits) d (⟨(f d).2, g, false⟩ :: t) d1 o
  | callStop {n : Nat} {f : σ → σ × BitVec 32} {bits : BitVec 32} {d : σ} {g : σ → σ} : (f d).2 &&& ~~~bits ≠ 0 →
      Exec (.call n f bits) d [⟨(f d).2, g, true⟩] (g (f d).1) .ret
  | yieldFinalSusp {v : BitVec 32} {d : σ} : Exec (.yieldFinal v) d [] d (.susp v)
  | yieldFinal {v : BitVec 32} {d : σ} {g : σ → σ} : Exec (.yieldFinal v) d [⟨v, g, false⟩] (g d) .ret

/-- Executing a coroutine function: the body, then the code behind `cco_finally`, which is not interrupted by
a stop. `none` when done, a value when suspended. A `break` or `continue` outside of the loops of the body
leaves the function without executing the code behind `cco_finally`. -/
inductive Runs (p : Routine σ) (d : σ) : List (Pause σ) → σ → Option (BitVec 32) → Prop
  | susp {t : List (Pause σ)} {d1 : σ} {v : BitVec 32} : Exec p.body d t d1 (.susp v) → Runs p d t d1 (some v)
  | left {t : List (Pause σ)} {d1 : σ} {o : Out} : Exec p.body d t d1 o → o = .brk ∨ o = .cont → Runs p d t d1 none
  | fin {t1 t2 : List (Pause σ)} {d1 d2 : σ} {o1 o : Out} : Exec p.body d t1 d1 o1 → o1 = .norm ∨ o1 = .ret → Exec p.fin d1 t2 d2 o →
      (∀ q ∈ t2, q.stopped = false) → (∀ v, o ≠ .susp v) → Runs p d (t1 ++ t2) d2 none
  | finSusp {t1 t2 : List (Pause σ)} {d1 d2 : σ} {o1 : Out} {v : BitVec 32} : Exec p.body d t1 d1 o1 → o1 = .norm ∨ o1 = .ret → Exec p.fin d1 t2 d2 (.susp v) →
      (∀ q ∈ t2, q.stopped = false) → Runs p d (t1 ++ t2) d2 (some v)

/-- The lines of the macros in a statement. -/
def lines : Stmt σ → List Nat
  | .seq a b | .ite _ a b => lines a ++ lines b
  | .loop _ a => lines a
  | .yield n _ | .await n _ | .call n _ _ => [n]
  | _ => []

/-- No `cco_return` and `cco_yield_final`. -/
def calm : Stmt σ → Bool
  | .seq a b | .ite _ a b => calm a && calm b
  | .loop _ a => calm a
  | .ret | .yieldFinal _ => false
  | _ => true

/-- The compiler accepts the function (no `case` label twice: no two macros on one line), and behind
`cco_finally` it does not return early. -/
structure Written (p : Routine σ) : Prop where
  lines : (lines p.body ++ lines p.fin).Nodup
  pos : ∀ n ∈ Spec.lines p.body ++ Spec.lines p.fin, 0 < n
  calm : calm p.fin = true

/-- Histories of calls, with whatever others do with the members in between, up to a call that has not
returned yet. The coroutine is stopped only when it is suspended in its body. -/
inductive Hist (p : Routine σ) (d0 : σ) : List (Pause σ) → Int → σ → Prop
  | start : Hist p d0 [] 0 d0
  | again {t : List (Pause σ)} {st st' : Int} {d d' : σ} {f : Nat} {v : BitVec 32} (g : σ → σ) (stopped : Bool) : Hist p d0 t st d →
      callCo p f st d = some (st', d', v) → st' ≠ DONE → (stopped = true → ∃ n ∈ Spec.lines p.body, st' = (n : Int)) →
      Hist p d0 (t ++ [⟨v, g, stopped⟩]) (if stopped then stopState st' else st') (g d')

end Verif.Coro.Spec
