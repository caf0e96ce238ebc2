import Verif.PQueue.Props
import Mathlib.Tactic.Common
/- What `pqueue` asks of the allocator: specification and lemmas for C134 and C135. -/
namespace Verif.PQueue
variable {α : Type}

namespace Spec

/-- The same call, with an allocator that has (`b`), or has not, what is asked for. -/
def given (b : Bool) : Op α → Op α
  | .push _ x => .push b x
  | .reserve _ n => .reserve b n
  | .shrinkToFit _ => .shrinkToFit b
  | o => o

/-- Does the call need the allocator? It does when it is undefined without. -/
def asks (less : α → α → Bool) (q : PQ α) (o : Op α) : Bool := (step less q (given false o)).isNone

/-- The calls that are not about the capacity. -/
def ordinary : Op α → Prop
  | .reserve _ _ | .shrinkToFit _ => False
  | _ => True

/-- The elements a call adds. -/
def credit : Op α → Nat
  | .push _ _ => 1
  | _ => 0

/-- Histories of ordinary calls from `q` on that fit in room for `n` elements, whatever the allocator
does. -/
inductive Within (less : α → α → Bool) (n : Nat) (q : PQ α) : PQ α → Prop
  | start : Within less n q q
  | call {p p' : PQ α} {o : Op α} {r : Option α} : Within less n q p → valid p.elems.length (given true o) →
      ordinary o → p.elems.length + credit o ≤ n → step less p o = some (p', r) → Within less n q p'

/-- Histories of ordinary calls on a fresh queue: `moved` counts the elements in the queue each time a
call went to the allocator, `added` the elements pushed. -/
inductive Grown (less : α → α → Bool) : PQ α → Nat → Nat → Prop
  | init : Grown less init 0 0
  | call {q q' : PQ α} {moved added : Nat} {o : Op α} {r : Option α} :
      Grown less q moved added → valid q.elems.length o → ordinary o → step less q o = some (q', r) →
      Grown less q' (moved + if asks less q o then q.elems.length else 0) (added + credit o)

end Spec
open Spec

theorem valid_given {n : Nat} {o : Op α} (hv : valid n o) : valid n (given true o) := by
  cases o with
  | push ok x => rfl
  | _ => exact hv

/-- Within the capacity no call depends on the allocator. -/
theorem room_same {less : α → α → Bool} {q : PQ α} {o : Op α} (ho : ordinary o)
    (hf : q.elems.length + credit o ≤ q.cap) (b : Bool) : step less q (given b o) = step less q o := by
  cases o with
  | push ok x =>
    simp only [credit] at hf
    simp only [given, step, push, grow, if_neg (show ¬ q.elems.length = q.cap by omega)]
  | reserve => exact ho.elim
  | shrinkToFit => exact ho.elim
  | _ => rfl

theorem step_len {less : α → α → Bool} (hw : StrictWeak less) {q q' : PQ α} {o : Op α} {r : Option α}
    (hc : q.elems.length ≤ q.cap) (hv : valid q.elems.length o) (ho : ordinary o) (hs : step less q o = some (q', r)) :
    q'.elems.length ≤ q.elems.length + credit o ∧ q'.elems.length ≤ q'.cap ∧
    (q.elems.length + credit o ≤ q.cap → q'.cap = q.cap) ∧
    (q.cap < q.elems.length + credit o → q'.cap = q.elems.length * 3 / 2 + 4) := by
  cases o with
  | push ok x =>
    have : ok = true := hv
    subst this
    obtain ⟨q1, e1, e2, -, e4, -⟩ := push_spec hw q x hc
    have hs' := hs
    simp only [step, e1, Option.bind_eq_bind, Option.bind_some, Option.some.injEq, Prod.mk.injEq] at hs'
    obtain ⟨rfl, -⟩ := hs'
    refine ⟨by rw [e2.length_eq]; simp [credit], e4, ?_, ?_⟩
    · intro hroom
      simp only [credit] at hroom
      simp only [push, grow, if_neg (show ¬ q.elems.length = q.cap by omega), Option.bind_eq_bind, Option.bind_some] at e1
      split at e1
      · simp only [Option.bind_eq_some_iff] at e1
        obtain ⟨l, -, hh⟩ := e1; cases hh; rfl
      · cases e1
    · intro hfull
      simp only [credit] at hfull
      simp only [push, grow, if_pos (show q.elems.length = q.cap by omega), reserve, Option.bind_eq_bind] at e1
      rw [if_neg (by omega), if_neg (by omega)] at e1
      simp only [if_true, Option.bind_some] at e1
      rw [if_pos (by omega)] at e1
      simp only [Option.bind_eq_some_iff] at e1
      obtain ⟨l, -, hh⟩ := e1; cases hh; rfl
  | pop =>
    have hv' : 0 < q.elems.length := hv
    obtain ⟨l', e1, p1, -⟩ := eraseAt_spec hw q 0 hv
    simp only [step, pop, if_neg (show ¬ q.elems.length = 0 by omega), e1, Option.bind_eq_bind, Option.bind_some,
      Option.some.injEq, Prod.mk.injEq] at hs
    obtain ⟨rfl, -⟩ := hs
    have := p1.length_eq
    simp only [List.length_cons] at this
    simp only [credit]
    refine ⟨by omega, by omega, fun _ => trivial, fun h => by omega⟩
  | eraseAt i =>
    obtain ⟨l', e1, p1, -⟩ := eraseAt_spec hw q i hv
    simp only [step, e1, Option.bind_eq_bind, Option.bind_some, Option.some.injEq, Prod.mk.injEq] at hs
    obtain ⟨rfl, -⟩ := hs
    have := p1.length_eq
    simp only [List.length_cons] at this
    simp only [credit]
    refine ⟨by omega, by omega, fun _ => trivial, fun h => by omega⟩
  | makeHeap =>
    obtain ⟨l', e1, p1, -⟩ := makeHeap_spec hw q
    simp only [step, e1, Option.bind_eq_bind, Option.bind_some, Option.some.injEq, Prod.mk.injEq] at hs
    obtain ⟨rfl, -⟩ := hs
    have := p1.length_eq
    simp only [credit]
    refine ⟨by omega, by omega, fun _ => trivial, fun h => by omega⟩
  | store i x =>
    simp only [step, Option.bind_eq_bind, Option.bind_eq_some_iff] at hs
    obtain ⟨y, -, hh⟩ := hs
    cases hh
    simp only [credit, List.length_set]
    refine ⟨by omega, by omega, fun _ => trivial, fun h => by omega⟩
  | clear =>
    simp only [step, clear, Option.some.injEq, Prod.mk.injEq] at hs
    obtain ⟨rfl, -⟩ := hs
    simp only [credit, List.length_nil]
    refine ⟨by omega, by omega, fun _ => trivial, fun h => by omega⟩
  | reserve _ _ => exact ho.elim
  | shrinkToFit _ => exact ho.elim

theorem given_credit (b : Bool) (o : Op α) : credit (given b o) = credit o := by cases o <;> rfl
theorem given_ordinary {b : Bool} {o : Op α} (h : ordinary o) : ordinary (given b o) := by cases o <;> exact h

theorem within_cap {less : α → α → Bool} (hw : StrictWeak less) {n : Nat} {q p : PQ α} (h : q.elems.length ≤ q.cap)
    (hn : n ≤ q.cap) (hp : Within less n q p) : p.elems.length ≤ p.cap ∧ p.cap = q.cap := by
  induction hp with
  | start => exact ⟨h, rfl⟩
  | @call p p' o r _ hv ho hf hs ih =>
    obtain ⟨i1, i2⟩ := ih
    have hroom : p.elems.length + credit o ≤ p.cap := by omega
    rw [← room_same ho hroom true] at hs
    obtain ⟨-, e2, e3, -⟩ := step_len hw i1 hv (given_ordinary ho) hs
    exact ⟨e2, by rw [e3 (by rw [given_credit]; exact hroom), i2]⟩

theorem grown_bound {less : α → α → Bool} (hw : StrictWeak less) {q : PQ α} {m a : Nat} (h : Grown less q m a) :
    q.elems.length ≤ q.cap ∧ m + (3 * q.elems.length - 2 * q.cap) ≤ 3 * a := by
  induction h with
  | init => exact ⟨by simp [init], by simp [init]⟩
  | @call q q' m a o r _ hv ho hs ih =>
    obtain ⟨i1, i2⟩ := ih
    obtain ⟨e1, e2, e3, e4⟩ := step_len hw i1 hv ho hs
    refine ⟨e2, ?_⟩
    by_cases hroom : q.elems.length + credit o ≤ q.cap
    · have : asks less q o = false := by
        rw [asks, room_same ho hroom false, hs]; rfl
      rw [this, e3 hroom]
      simp only [Bool.false_eq_true, if_false]
      omega
    · rw [e4 (by omega)]
      have : credit o ≤ 1 := by cases o <;> simp [credit]
      split <;> omega

end Verif.PQueue
