import Verif.Coro.Model
/- Specification of coroutine cleanup. -/
namespace Verif.Coro.Spec
variable {σ : Type}

/-- Lines of macros in the body are positive and not behind `cco_finally`. -/
def WellFormed (p : Prog σ) : Prop :=
  ∀ n d, match (p.body n d).2 with
    | .yield m _ | .await m => 0 < m ∧ p.inFin m = false
    | _ => True

/-- The code behind `cco_finally` does not suspend. -/
def PlainFinally (p : Prog σ) : Prop :=
  ∀ d, match (p.fin d).2 with
    | .ret | .yieldFinal _ | .fall => True
    | _ => False

/-- Histories of one coroutine object: resumed or stopped at any time, but not stopped while it is
already stopped. -/
inductive Reach (p : Prog σ) (d : σ) : Co σ → Prop
  | init : Reach p d (fresh d)
  | resume (c c' : Co σ) (f : Nat) (v : Int) : Reach p d c → Coro.resume p f c = some (c', v) → Reach p d c'
  | stop (c : Co σ) : Reach p d c → c.state ≠ FINALLY → Reach p d (stop c)

/-- Histories in which the coroutine can also be stopped again while it is stopped. -/
inductive ReachAny (p : Prog σ) (d : σ) : Co σ → Prop
  | init : ReachAny p d (fresh d)
  | resume (c c' : Co σ) (f : Nat) (v : Int) : ReachAny p d c → Coro.resume p f c = some (c', v) → ReachAny p d c'
  | stop (c : Co σ) : ReachAny p d c → ReachAny p d (stop c)

end Verif.Coro.Spec
