import Verif.Vec.Props
import Verif.Deque.Props
import Verif.PQueue.Props
import Verif.Clist.Props
import Verif.Cspan.Props
import Mathlib.Tactic.Common
/- C142: the small derived functions (`put_n`, `erase_range`, `take`, `index`, `drop`,
`unlink_front_node`, `cspan_from_n`) do what the calls they are made of do. -/
namespace Verif.Vec
open Spec
variable {α : Type}

/-- C142: `put_n` appends the elements one by one. Whatever each allocation does, the call is
defined and the vec holds its old sequence followed by some of the new elements in their order;
when no allocation fails it is all of them. The result is a vec of the ordinary kind. -/
theorem vec_put_n {v : Vec α} {l ent outs : List α} (h : Reach v l ent outs) (xs : List (α × Bool)) :
    ∃ v' kept, putN v xs = some v' ∧ kept.Sublist (xs.map Prod.fst) ∧
      ((∀ x ∈ xs, x.2 = true) → kept = xs.map Prod.fst) ∧ Reach v' (l ++ kept) (ent ++ kept) outs := by
  induction xs generalizing v l ent with
  | nil => exact ⟨v, [], rfl, by simp, by simp, by simpa using h⟩
  | cons x xs ih =>
    obtain ⟨a, ok⟩ := x
    obtain ⟨v1, r, e1, _, e3, e4⟩ := push_spec (reach_rep h) ok a
    have hc := Reach.call (o := .push ok a) (r := ⟨r, none⟩) (v' := v1) h trivial
      (by simp only [step, e1, Option.bind_eq_bind, Option.bind_some])
    simp only [out, Option.toList_none, List.append_nil, after, entered] at hc
    cases r with
    | true =>
      simp only [if_true] at hc
      obtain ⟨v', kept, f1, f2, f3, f4⟩ := ih hc
      refine ⟨v', a :: kept, by simp only [putN, e1, Option.bind_eq_bind, Option.bind_some, f1], ?_, ?_, ?_⟩
      · simpa using f2.cons_cons a
      · intro hall
        rw [f3 fun x hx => hall x (List.mem_cons_of_mem _ hx)]
        rfl
      · simpa using f4
    | false =>
      simp only [Bool.false_eq_true, if_false, List.append_nil] at hc
      obtain ⟨v', kept, f1, f2, f3, f4⟩ := ih hc
      refine ⟨v', kept, by simp only [putN, e1, Option.bind_eq_bind, Option.bind_some, f1], ?_, ?_, f4⟩
      · simpa using f2.cons a
      · intro hall
        have := hall (a, ok) List.mem_cons_self
        rw [(e4 rfl).2] at this
        cases this

example : ∃ v', putN exVec [(5, true), (6, true)] = some v' ∧ v'.size = 5 ∧ at' v' 4 = some 6 :=
  ⟨_, rfl, rfl, rfl⟩

/-- C142: `erase_range` from the element at `i` to the element at `j`, or to the end, removes
exactly the elements in between, destroys each of them once, and returns the element that
followed, NULL if there is none. -/
theorem vec_erase_range {v : Vec α} {l ent outs : List α} (h : Reach v l ent outs) (i : Nat)
    (j : Option Nat) (hi : i < l.length) (hj : i ≤ j.getD l.length ∧ j.getD l.length ≤ l.length) :
    ∃ v' r, eraseRange v i j = some (v', r) ∧
      Reach v' (l.take i ++ l.drop (j.getD l.length)) ent outs ∧
      v'.dropped = v.dropped ++ (l.drop i).take (j.getD l.length - i) ∧
      (r = none ↔ j.getD l.length = l.length) ∧ ∀ k, r = some k → at' v' k = l[j.getD l.length]? := by
  have hR := reach_rep h
  have hn : i + (j.getD l.length - i) = j.getD l.length := by omega
  have hne : l ≠ [] := by rintro rfl; simp at hi
  obtain ⟨v', r, e1, e2, e3, e4⟩ := eraseN_spec hR i (j.getD l.length - i) (by omega) hne
  have hc := Reach.call (o := .eraseN i (j.getD l.length - i)) (r := ⟨true, none⟩) (v' := v') h
    (by simp only [valid]; exact ⟨by omega, hne⟩)
    (by simp only [step, e1, Option.bind_eq_bind, Option.bind_some])
  simp only [out, Option.toList_none, List.append_nil, after, entered] at hc
  rw [hn] at hc e2 e4
  refine ⟨v', r, ?_, hc, e3, ?_, ?_⟩
  · simp only [eraseRange, hR.size]
    rw [guard_pos hj.1]
    simpa using e1
  · subst e4; split <;> simp_all
  · intro k hk
    rw [hk] at e4
    split at e4
    · cases e4
    · cases e4
      rw [at_spec e2, List.getElem?_append_right (by simp)]
      simp; congr 1; omega

example : ∃ v', eraseRange exVec 1 none = some (v', none) ∧ v'.size = 1 ∧ v'.dropped = [1, 8, 3] :=
  ⟨_, rfl, rfl, rfl⟩

/-- C142: `take` destroys everything the vec held, once, and the vec then holds the sequence of
the vec given up, nothing of which is destroyed. -/
theorem vec_take {v w : Vec α} {l ent outs m entw outsw : List α} (h : Reach v l ent outs)
    (hw : Reach w m entw outsw) :
    ∃ v', take v w = some v' ∧ v'.size = m.length ∧ (∀ k, at' v' k = m[k]?) ∧
      v'.dropped.Perm (v.dropped ++ l ++ w.dropped) := by
  have hR := reach_rep h
  have hW := reach_rep hw
  have key : ∀ log, drop v = some log → log.Perm (v.dropped ++ l) →
      ∃ v', take v w = some v' ∧ v'.size = m.length ∧ (∀ k, at' v' k = m[k]?) ∧
        v'.dropped.Perm (v.dropped ++ l ++ w.dropped) := fun log e p =>
    ⟨{ w with dropped := log ++ w.dropped }, by simp only [take, e, Option.bind_eq_bind, Option.bind_some],
      hW.size, fun k => at_spec (v := { w with dropped := log ++ w.dropped })
        ⟨hW.size, hW.null, hW.blk⟩ k, p.append_right _⟩
  by_cases hc : v.cap = 0
  · have : l = [] := List.length_eq_zero_iff.1 (by have := hR.le_cap; omega)
    subst this
    exact key v.dropped (by simp [drop, hc]) (by simp)
  · obtain ⟨v1, e1, _, e3⟩ := clear_spec hR
    exact key v1.dropped (by simp [drop, hc, e1]) (by rw [e3]; exact (List.reverse_perm l).append_left _)

example : ∃ v', take exVec exVec = some v' ∧ v'.size = 3 ∧ v'.dropped = [1, 3, 8, 7, 1] := ⟨_, rfl, rfl, rfl⟩

end Verif.Vec

namespace Verif.Deque
open Spec
variable {α : Type}

/-- C142: `index` of the iterator reached from `begin` by `i` steps is `i`, also for the one past
the last element reached that way. -/
theorem deque_index {d : Deque α} {l : List α} (h : Reach d l) (i : Nat) (hi : i ≤ l.length) :
    ∃ it, nexts d (begin d) i = some it ∧ index d it = i := by
  have hr := reach_rep h
  refine ⟨_, nexts_begin hr i hi, ?_⟩
  have hl := hr.len
  exact hr.toidx (by omega)

example : ∃ it, nexts exDeque (begin exDeque) 1 = some it ∧ index exDeque it = 1 :=
  deque_index reach_exDeque 1 (by decide)

end Verif.Deque

namespace Verif.PQueue
open Spec
variable {α : Type}

/-- C142: dropping a priority queue leaves every element that entered and was not handed out
destroyed exactly once, ordered or not. -/
theorem pqueue_drop {less : α → α → Bool} (hw : StrictWeak less) {q : PQ α} {ent outs : List α} {b : Bool}
    (h : Reach less q ent outs b) : (outs ++ drop q).Perm ent := by
  classical
  have hp := (reach_inv hw h).2.1
  rw [List.perm_iff_count] at hp ⊢
  intro a
  have := hp a
  simp only [drop, clear, List.count_append, List.count_reverse] at *
  omega

example : (([] : List Nat) ++ drop ⟨true, [10, 4, 9, 3, 2, 8, 7], 10, []⟩).Perm [10, 4, 9, 3, 2, 8, 7] :=
  pqueue_drop natLess_sw reach_ex

end Verif.PQueue

namespace Verif.Clist
open Spec
variable {α : Type} {F : Fns α}

/-- C142: `unlink_front_node` on a non-empty list hands over the first node without destroying
its value; the list keeps the rest and no other list changes. -/
theorem list_unlink_front (hw : StrictWeak F.less) {m : Mem α} (h : Reach F m) (s : Nat) {x : α}
    {rest : List α} (hc : contents m s = x :: rest) :
    ∃ l a, unlinkFront (m.lst s) = some (l, a) ∧ each l = some rest ∧
      (∃ n, l.heap.rd a = some ⟨x, n⟩) ∧
      ∀ t, t ≠ s → each ⟨l.heap, m.last t⟩ = some (contents m t) := by
  obtain ⟨G, R⟩ := reach_rep hw h
  have hG : contents m s = vals (G s) := congrFun R.contents s
  have il := R.list s
  have hcase : ∃ y S, G s = y :: S ∧ y.2 = x ∧ vals S = rest := by
    rw [hc] at hG
    cases hg : G s with
    | nil => rw [hg] at hG; simp [vals] at hG
    | cons y S => rw [hg] at hG; simp [vals] at hG ⊢; exact ⟨hG.1.symm, hG.2.symm⟩
  obtain ⟨y, S, hg, rfl, rfl⟩ := hcase
  rw [hg] at il
  obtain ⟨h', last', e1, e2, e3, _, e5⟩ := unlinkMid (P := []) il
  refine ⟨⟨h', last'⟩, y.1, ?_, ?_, e3, fun t ht => ?_⟩
  · have hl : m.last s = lastA (y :: S) := il.last
    rw [List.append_nil] at e1
    rw [← hl] at e1
    exact e1
  · exact each_spec e2
  · rw [congrFun R.contents t]
    refine each_spec ((R.list t).frame fun a ha => e5 a ?_)
    rw [List.nil_append, ← hg]
    exact R.disj t s ht a ha

example : ∃ m : Mem Nat, ∃ l a, Reach exF m ∧ contents m 0 = [5, 3, 8] ∧ unlinkFront (m.lst 0) = some (l, a) ∧
    each l = some [3, 8] := by
  refine ⟨_, _, _, .call .init (o := .putN 0 (fun _ => some 0) [5, 3, 8]) (fun _ => rfl) rfl, rfl, rfl, rfl⟩

end Verif.Clist

namespace Verif.Cspan
open Spec

/-- C142: `cspan_from_n(data, n)` is a one-dimensional span over `n` consecutive elements:
position `i` below `n` is the element at `data + i`, and every other position is refused. -/
theorem span_from_n (data : Int) (n : Nat) (hn : n < 2147483648) :
    Shape (fromN data n) [n] ∧ size (fromN data n) = some (n : Int) ∧
    ∀ i : Int, -9223372036854775808 ≤ i → i < 9223372036854775808 →
      at' (fromN data n) [i] = if 0 ≤ i ∧ i < n then some (data + i) else none := by
  have hs : fromN data n = ⟨some data, ints [n], [1]⟩ := by
    simp only [fromN, toI32_ok (x := (n : Int)) (by omega) (by omega)]; rfl
  have hS : Shape (fromN data n) [n] := by
    rw [hs]
    exact ⟨rfl, rfl, by simp, by simpa using hn, by simp [extent]; omega⟩
  refine ⟨hS, by rw [hs]; simp [size, sizeLoop, ints], fun i h0 h1 => ?_⟩
  by_cases hi : 0 ≤ i ∧ i < n
  · obtain ⟨k, rfl⟩ := Int.eq_ofNat_of_zero_le hi.1
    have hk : k < n := by omega
    rw [if_pos hi]
    have := span_at (idx := [k]) hS (by rw [hs]; simp) (by constructor; exact hk; constructor)
    rw [show ([(k : Int)] : List Int) = ints [k] from rfl, this, hs]
    simp [addr, dot]
  · rw [if_neg hi]
    exact span_at_checked hS (by simpa using ⟨h0, h1⟩) ⟨0, i, n, rfl, rfl, hi⟩

example : at' (fromN 100 5) [4] = some 104 ∧ at' (fromN 100 5) [5] = none ∧ at' (fromN 100 5) [-1] = none := by decide

end Verif.Cspan
