import Verif.Algo.Pairwise
import Verif.Arc.Props
import Verif.Box.Props
import Verif.Cost.Shrink
import Verif.Smap.Stable
import Verif.Hmap.Props
import Verif.Cspan.Print
import Verif.Random.Props

/-!
# Concrete cases

Theorems about reachable states (of lists, shared and unique pointers, containers under iteration) applied to
particular states that are reached by a few calls, for the theorems that no other example applies.
-/

open List (Perm)
open scoped List

namespace Verif.Clist
open Verif.Clist.Spec

/-- Two lists, 5, 8 and 7 (list.h 120-420). -/
theorem two_lists : ∃ m, Reach exF m ∧ contents m 0 = [5, 8] ∧ contents m 1 = [7] := by
  refine ⟨_, .call (.call (.call .init (o := .putN 0 (fun _ => some 0) [5, 3, 8]) (fun _ => rfl) rfl)
    (o := .remove 0 203) trivial rfl) (o := .pushBack 1 (some 1) 7) rfl rfl, rfl, rfl⟩

example : ∃ m m' r, Reach exF m ∧ run exF m (.splice 0 1 1) = some (m', r) ∧ Reach exF m' ∧ After exF (contents m) r (contents m') (.splice 0 1 1) := by
  obtain ⟨m, h, h0, h1⟩ := two_lists
  obtain ⟨m', r, e1, e2, e3⟩ := list_is_sequence exF_weak h (.splice 0 1 1) (by simp [valid, h0])
  exact ⟨m, m', r, h, e1, e2, e3⟩

example : ∃ (m : Mem Nat) (as : Nat → List Nat), Reach exF m ∧ (∀ s, OneCycle m s (contents m s) (as s)) ∧ contents m 0 = [5, 8] := by
  obtain ⟨m, h, h0, h1⟩ := two_lists
  obtain ⟨as, e, -⟩ := list_one_cycle exF_weak h
  exact ⟨m, as, h, e, h0⟩

example : ∃ m, Reach exF m ∧ each (m.lst 0) = some [5, 8] ∧ count (m.lst 0) = some 2 ∧ front (m.lst 0) = some 5 ∧ back (m.lst 0) = some 8 := by
  obtain ⟨m, h, h0, h1⟩ := two_lists
  have := list_queries exF_weak h 0
  rw [h0] at this
  exact ⟨m, h, this.1, this.2.1, this.2.2.1, this.2.2.2.1⟩

example : ∃ m m' r, Reach exF m ∧ run exF m (.remove 0 105) = some (m', r) ∧ contents m' 0 = [8] ∧ contents m' 1 = [7] ∧ r.dropped = [5] := by
  obtain ⟨m, h, h0, h1⟩ := two_lists
  obtain ⟨m', r, e1, e2, e3, -, e4⟩ := list_remove exF_weak h 0 105
  rw [h0] at e2 e4
  exact ⟨m, m', r, h, e1, e2, (e3 1 (by decide)).trans h1, e4⟩

example : ∃ m m' r, Reach exF m ∧ run exF m (.sort 0 (fun _ => true)) = some (m', r) ∧ r.ok = true ∧ contents m' 1 = [7] := by
  obtain ⟨m, h, h0, h1⟩ := two_lists
  obtain ⟨m', r, e1, -, e2, -, -, e3⟩ := list_sort exF_weak h 0 (fun _ => true)
  exact ⟨m, m', r, h, e1, (e3 (fun _ => rfl)).resolve_right (by rw [h0]; simp), (e2 1 (by decide)).trans h1⟩

example : ∃ m m' r, Reach exF m ∧ run exF m (.eraseIf 0 (· == 5)) = some (m', r) ∧ contents m' 0 = [8] ∧ r.dropped = [5] := by
  obtain ⟨m, h, h0, h1⟩ := two_lists
  obtain ⟨m', r, e1, e2, -, e4⟩ := list_erase_if exF_weak h 0 (· == 5)
  rw [h0] at e2 e4
  exact ⟨m, m', r, h, e1, e2, e4⟩

/-- 8 is found: there is an element that equals 108. -/
example : ∃ (m : Mem Nat) (it : Iter) (k x : Nat), Reach exF m ∧ find exF.eq 0 m.heap m.last 108 = some it ∧ (contents m 0)[k]? = some x ∧ exF.eq x 108 = true := by
  obtain ⟨m, h, h0, h1⟩ := two_lists
  obtain ⟨it, e1, e2⟩ := list_find exF_weak h exF.eq 0 108
  rcases e2 with ⟨-, e2⟩ | ⟨k, x, jt, e3, e4, -⟩
  · rw [h0] at e2
    exact absurd (e2 8 (by simp)) (by decide)
  · exact ⟨m, it, k, x, h, e1, e3, e4⟩

example : ∃ m b, Reach exF m ∧ eq exF.eq m.heap (m.last 0) (m.last 1) = some b ∧ b = false := by
  obtain ⟨m, h, h0, h1⟩ := two_lists
  obtain ⟨b, e1, e2⟩ := list_eq exF_weak h exF.eq 0 1
  rw [h0, h1] at e2
  refine ⟨m, b, h, e1, ?_⟩
  cases b
  · rfl
  · exact absurd (e2.1 rfl).1 (by decide)

section
variable {m : Mem Nat} (h : Reach exF m) (h0 : contents m 0 = [5, 8]) (h1 : contents m 1 = [7])
include h h0 h1

example := list_find_in exF_weak h exF.eq 0 0 2 108 (by simp [h0])
example := list_insert_iter exF_weak h (s := 0) (k := 1) (w := 3) 6 (by simp [h0])
example := list_erase_iter exF_weak h (s := 0) (k := 0) (by simp [h0])
example := list_splice_iter exF_weak h (s := 0) (k := 1) (t := 1) (by decide) (by simp [h0])
example := list_later_iter exF_weak h (s := 0) (k := 0) (j := 1) (by decide) (by simp [h0])
example := list_erase_range_iter_partial exF_weak h (s := 0) (k := 0) (n := 1) (by simp [h0]) (by simp [h0])

end

end Verif.Clist

namespace Verif.Arc
open Verif.Arc.Spec

/-- Two threads have a handle to the same object (arc.h 90-220). -/
theorem shared : ∃ (s : State Nat) (made : List Nat), Reach exL 2 2 s made ∧ Idle s ∧ handles s = [⟨108, 100⟩, ⟨108, 100⟩] := by
  obtain ⟨made, h⟩ := run_reach (L := exL) exEvents (init 2 2) ((run exL (init 2 2) exEvents).get rfl) [] .init rfl
  exact ⟨_, made, h, idle_of rfl, rfl⟩

example : ∃ (s : State Nat) (made : List Nat) (v : Nat), Reach exL 2 2 s made ∧ s.mem.value 108 = some v ∧ s.mem.load 100 = some 2 ∧ made ~ s.mem.dropped ++ s.mem.vals.map Prod.snd := by
  obtain ⟨s, made, h, hi, hh⟩ := shared
  obtain ⟨⟨v, hv⟩, -⟩ := arc_alive exL_proper h (x := ⟨108, 100⟩) (by simp [hh])
  obtain ⟨hu, -⟩ := arc_use_count exL_proper h hi (x := ⟨108, 100⟩) (by simp [hh])
  rw [hh] at hu
  exact ⟨s, made, v, h, hv, hu, arc_conserved exL_proper h⟩

example {s : State Nat} {made : List Nat} (h : Reach exL 2 2 s made) (hi : Idle s) (hh : handles s = [⟨108, 100⟩, ⟨108, 100⟩]) (hr : s.raws = []) {g v : Nat} (hg : s.mem.value g = some v) : g = 108 := by
  rcases arc_no_garbage exL_proper h hi hg with e | ⟨x, hx, e⟩
  · rw [hr] at e; cases e
  · rw [hh] at hx
    simp at hx
    subst hx
    exact e.symm

/-- After both have dropped theirs nothing is left. -/
example : ∃ (s : State Nat) (made : List Nat), Reach exL 2 2 s made ∧ s.mem.blocks = [] ∧ s.mem.vals = [] ∧ s.mem.dropped ~ made := by
  obtain ⟨made, h⟩ := run_reach (L := exL) (exEvents ++ exDrops) (init 2 2) ((run exL (init 2 2) (exEvents ++ exDrops)).get rfl) [] .init rfl
  exact ⟨_, made, h, arc_no_leak exL_proper h (idle_of rfl) rfl rfl⟩

/-- Thread 1 is about to destroy the value: nobody has a handle to it. -/
example : ∃ (s : State Nat) (made : List Nat) (t : Thread Nat), Reach exL 2 2 s made ∧ t ∈ s.threads ∧ (∃ cs, t.todo = .kdrop 108 :: cs) ∧ ∀ x ∈ handles s, x.get ≠ 108 := by
  obtain ⟨made, h⟩ := run_reach (L := exL) (exEvents ++ exDrops.take 4) (init 2 2) ((run exL (init 2 2) (exEvents ++ exDrops.take 4)).get rfl) [] .init rfl
  refine ⟨_, made, _, h, List.mem_of_getElem? (i := 1) rfl, ⟨_, rfl⟩, ?_⟩
  exact arc_destroy_last exL_proper h (List.mem_of_getElem? (i := 1) rfl) rfl

/-- Thread 0 is about to allocate. -/
example : ∃ (s s' : State Nat) (made : List Nat), Reach exL 1 1 s made ∧ step exL s 0 100 = some s' ∧ Reach exL 1 1 s' (made ++ [5]) := by
  obtain ⟨made, h⟩ := run_reach (L := exL) [.call 0 (.make 0 5)] (init 1 1) ((run exL (init 1 1) [.call 0 (.make 0 5)]).get rfl) [] .init rfl
  obtain ⟨s', e1, e2⟩ := arc_step_defined exL_proper h (i := 0) rfl rfl 100 (fun z hz => by cases hz; decide)
  exact ⟨_, s', made, h, e1, e2⟩

example : ∃ s', call (init 2 2 : State Nat) 0 (.make 0 5) = some s' ∧ ∃ t, s'.threads[0]? = some t ∧ left t.todo ≤ 6 := by
  obtain ⟨s', e⟩ := arc_call_defined (init 2 2 : State Nat) 0 _ (.make 0 5) rfl rfl (by simp [Legal, init])
  exact ⟨s', e, arc_call_finishes e⟩

end Verif.Arc

namespace Verif.Box
open Verif.Box.Spec

/-- Three variables after some calls (box.h 70-200). -/
example : ∃ (s : State Nat) (w : View Nat) (made : List Nat), Reach (· + 1) 3 s w made ∧ s.vars[0]? = some none ∧ s.mem.dropped = [6, 5] ∧ (owners s).Nodup ∧ made ~ s.mem.dropped ++ held w := by
  obtain ⟨made, h⟩ := run_reach (cl := (· + 1)) (k := 3) exOps (Box.init 3) _ (Spec.init 3) _ [] .init (rfl : run (· + 1) (Box.init 3) (Spec.init 3) exOps = some ((run (· + 1) (Box.init 3) (Spec.init 3) exOps).get rfl))
  exact ⟨_, _, made, h, (box_contents h 0).2.1 rfl, (box_destroyed h).trans rfl, (box_owned_once h).1, box_conserved h⟩

example : ∃ (s s' : State Nat) (w w' : View Nat) (made : List Nat), Reach (· + 1) 3 s w made ∧ step (· + 1) s 400 (.make 0 9) = some s' ∧ Reach (· + 1) 3 s' w' (made ++ creates (· + 1) w (.make 0 9)) := by
  obtain ⟨made, h⟩ := run_reach (cl := (· + 1)) (k := 3) exOps (Box.init 3) _ (Spec.init 3) _ [] .init (rfl : run (· + 1) (Box.init 3) (Spec.init 3) exOps = some ((run (· + 1) (Box.init 3) (Spec.init 3) exOps).get rfl))
  obtain ⟨s', e1, e2⟩ := box_step_defined h (op := .make 0 9) rfl (a := 400) (by decide)
  exact ⟨_, s', _, _, made, h, e1, e2⟩

end Verif.Box

namespace Verif.Algo
open Verif.Algo.Spec

example := iterate_vec_partial sampleVec_reach (.inl (by simp))
example := filter_vec_partial sampleVec_reach (.inl (by simp)) (ss := someStages) (by decide) (by decide) (by decide) 8 (by decide)
example := vec_advance_undefined sampleVec_reach
example := iterate_smap Smap.natCmp_lawful Smap.sample_reach
example := filter_smap_partial Smap.natCmp_lawful Smap.sample_reach (ss := [.filt (fun e => e.1 % 2 == 1), .take 1]) (by decide) (by decide) (by decide) 9 (by decide)
example := iterate_hmap Hmap.natHasher_lawful Hmap.sample_reach

example : ∃ d : Deque.Deque Nat, Yields (dequeWalker d) (Deque.begin d) [9, 8, 1, 2, 3] ∧ Yields (dequeRWalker d) (Deque.rbegin d) [3, 2, 1, 8, 9] ∧
    filter (dequeWalker d) someStages 6 (Deque.begin d) = some (pipe someStages [9, 8, 1, 2, 3]) := by
  obtain ⟨d, h, -⟩ := sampleDeque_reach
  exact ⟨d, iterate_deque h, iterate_deque_reverse h, (filter_deque_partial h (by decide) (by decide) (by decide) 6 (by decide)).1⟩

example : ∃ (m : Clist.Mem Nat) (it : Clist.Iter), Clist.begin 0 (m.lst 0) = some it ∧ Yields (listWalker m) it [5, 8] := by
  obtain ⟨m, h, h0, -⟩ := Clist.two_lists
  obtain ⟨it, e1, e2⟩ := iterate_list Clist.exF_weak h 0
  exact ⟨m, it, e1, by rwa [h0] at e2⟩

example : ∃ (m : Clist.Mem Nat) (it : Clist.Iter), Clist.begin 0 (m.lst 0) = some it ∧ filter (listWalker m) someStages 3 it = some (pipe someStages [5, 8]) := by
  obtain ⟨m, h, h0, -⟩ := Clist.two_lists
  obtain ⟨it, e1, e2⟩ := filter_list_partial Clist.exF_weak h 0 (ss := someStages) (by decide) (by decide) (by rw [h0]; decide) 3 (by rw [h0]; decide)
  exact ⟨m, it, e1, by rwa [h0] at e2⟩

end Verif.Algo

namespace Verif.Hmap

example := map_erase_while_iterating_partial natHasher_lawful sample_reach (fun _ e => e.1 == 7) 11 (by decide +kernel)

end Verif.Hmap

namespace Verif.Smap
open Verif.Smap.Spec

example : ∃ m' ds, erase natCmp sample 3 = some (m', 1, ds) ∧ m'.size < m'.head := by
  obtain ⟨m', ds, h⟩ : ∃ m' ds, erase natCmp sample 3 = some (m', 1, ds) := ⟨_, _, rfl⟩
  exact ⟨m', ds, h, erase_leaves_free natCmp_lawful sample_reach h⟩

example (m' : Map Nat Nat) (h : run natCmp sample (.erase 3) = some m') := smap_erase_moves_one natCmp_lawful sample_reach h

end Verif.Smap

namespace Verif.Random

/-- A die: each number has the same number of outputs of the generator, of which more than half are used. -/
example := uniform_unbiased_partial (w := 64) (low := 1) (high := 6) ⟨by decide, by decide, by decide, by decide, by decide⟩
example := uniform_in_range_partial (σ := Nat) (w := 64) (low := 1) (high := 6) ⟨by decide, by decide, by decide, by decide, by decide⟩

end Verif.Random

namespace Verif.Cspan
open Verif.Cspan.Spec

example : swapAxes ⟨some 0, [2, 3, 4], [12, 4, 1]⟩ 0 3 = none := span_swap_axes_checked (by decide) (by decide) (by decide) (by decide)
example := span_back_partial (lay := .row) (ns := [3, 4, 5]) ⟨by decide, by decide, by decide, by decide, by decide⟩ 1000

end Verif.Cspan
