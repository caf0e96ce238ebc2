import Verif.Deque.Props
import Verif.Clist.Props
import Verif.PQueue.Props
import Verif.Utf8.ClassProps
import Verif.Cstr.Format
import Verif.Cspan.Print
import Verif.Coro.Gen
import Verif.Coro.StructProps
import Verif.Coro.ProcProps
import Verif.Coro.FiberProps
import Verif.Coro.TaskProps
import Verif.Coro.Props
import Verif.Coption.Props
import Verif.Regex.Life
import Verif.Fmt.Props
import Verif.Zstr.View
import Verif.Cost.Props
import Verif.Cost.Shrink
import Verif.Random.NormalProps
import Verif.Random.Shuffle
import Verif.Own.Props
import Verif.Alloc.Props
import Verif.Hmap.History

/-!
# More concrete cases

Theorems applied to particular states and arguments, for those whose own files only show that the hypotheses are met.
-/

open scoped List

namespace Verif.Deque
open Spec

/-- A `reserve` that is refused leaves the deque 4, 5 as it was. -/
example : ∃ d' r, step exDeque (.reserve false 100) = some (d', r) ∧ d' = exDeque :=
  ⟨_, _, rfl, (deque_alloc_failure_partial (o := .reserve false 100) reach_exDeque (by decide) rfl rfl (by simp)).1⟩

/-- 1, 2, 3 pushed, one pulled, one popped: one is left. -/
example : ∃ d : Deque Nat, Spec.Own d [3] [1, 2, 3] [1] ∧ ([3] ++ [1] ++ d.dropped).Perm [1, 2, 3] ∧ ∃ log, drop d = some log ∧ ([1] ++ log).Perm [1, 2, 3] := by
  have h1 := Spec.Own.call (o := .push true 1) (Spec.Own.init (α := Nat)) (by decide) rfl
  have h2 := Spec.Own.call (o := .push true 2) h1 (by decide) rfl
  have h3 := Spec.Own.call (o := .push true 3) h2 (by decide) rfl
  have h4 := Spec.Own.call (o := .pull) h3 (by decide) rfl
  have h5 := Spec.Own.call (o := .pop) h4 (by decide) rfl
  exact ⟨_, h5, (deque_ownership h5).2⟩

end Verif.Deque

namespace Verif.Clist
open Spec

example : ∃ m ent dr, Own exF 2 m ent dr ∧ contents m 0 = [5, 8] ∧ contents m 1 = [7] ∧ ent ~ dr ++ (List.range 2).flatMap (contents m) := by
  have h1 := Own.call (F := exF) (N := 2) (o := .putN 0 (fun _ => some 0) [5, 3, 8]) .init (fun _ => rfl) (by decide) rfl
  have h2 := Own.call (o := .remove 0 203) h1 trivial (by decide) rfl
  have h3 := Own.call (o := .pushBack 1 (some 1) 7) h2 rfl (by decide) rfl
  exact ⟨_, _, _, h3, rfl, rfl, list_ownership exF_weak h3⟩

end Verif.Clist

namespace Verif.PQueue

example := pqueue_make_heap natLess_sw (⟨true, [3, 9, 2, 10, 4], 8, []⟩ : PQ Nat)

end Verif.PQueue

namespace Verif.Utf8

example : casefold 75 = 107 ∧ toupper 107 = 75 := ⟨(case_mapping_ascii 75 (by decide)).1, (case_mapping_ascii 107 (by decide)).2.2⟩

end Verif.Utf8

namespace Verif.Cstr

example := string_construct [97, 98, 99] 2 120 Format.ab [97, 98] Format.reach_ab
example := string_capacity Format.ab [97, 98] Format.reach_ab 100
example := string_layout true 4096#64 30#64 63#64 (by decide)

end Verif.Cstr

namespace Verif.Cspan

/-- Three elements from the third one on, of ten in steps of two. -/
example : ∃ s', subspan ⟨some 0, [10], [2]⟩ 2 3 = some s' ∧ s'.shape = [3] := by
  obtain ⟨s', h1, h2, -⟩ := span_subspan_partial (s := ⟨some 0, [10], [2]⟩) (n := 10) (off := 2) (cnt := 3)
    ⟨rfl, rfl, by decide, by decide, by decide⟩ (by simp) (by decide) (by decide) (by decide) (by decide)
  exact ⟨s', h1, h2⟩

example := span_front (s := ⟨some 5, [2, 3], [3, 1]⟩) (ns := [2, 3]) (by simp)

end Verif.Cspan

namespace Verif.Coro

example := coroutine_cleanup_once_partial exProg_ok.1 exProg_ok.2 rfl (d := 0) (.resume _ ⟨10, 1, 0⟩ 3 7 .init rfl)
example := coroutine_stop_cleans_up exProg_ok.2 (c := ⟨10, 1, 0⟩) (by decide) 3

open Spec

theorem exRun_valid : ValidRun [1] exRun := by simp [exRun, ValidRun, ValidSpawns, NoLoss, insAfter]

example : ∃ s, runFiber (newFiber 1) 1 exRun = some (s, 0) ∧ s.resumed = [1, 3, 2, 3, 1, 1] ∧ s.live = [] := by
  obtain ⟨s, it, h1, h2, h3, h4, -⟩ := fiber_run_safe_partial (a := 1) (by decide) exRun_valid
  have h5 : steps [1] exRun = [] := by decide
  rw [h5] at h3 h4
  rw [h3.2 rfl] at h1
  exact ⟨s, h1, h2, List.perm_nil.1 h4⟩

example := task_completed_resumes_parent (c := (2, 0#32)) (p := (1, 0#32)) (rest := []) (e := ⟨0#32, none, false⟩) (e' := ⟨0#32, none, false⟩) rfl (by decide)

example (sched : List Nat) := semaphore_exclusion 1 [[.await, .release], [.await, .release]] (by simp [Balanced]) sched

end Verif.Coro

namespace Verif.Cost

example := pqueue_push_comparisons PQueue.natLess true ⟨true, [10, 4, 9, 3, 2, 8, 7], 10, []⟩ 11 3 (by decide)

example : Vec.shrinkToFit true (⟨some [none, none], 0, 2, [1]⟩ : Vec.Vec Nat) = ⟨some [none, none], 0, 2, [1]⟩ := vec_shrink_empty _ _ rfl
example : Stack.shrinkToFit none true (⟨some [none, none], 0, 2, [1]⟩ : Stack.Stack Nat) = ⟨some [none, none], 0, 2, [1]⟩ := stack_shrink_empty _ _ rfl

end Verif.Cost

namespace Verif.Hmap

example := iteration_order natHasher_lawful neighbours_reach detour_reach (by decide +kernel) (SameKeys.of_perm (by decide +kernel))

end Verif.Hmap

namespace Verif.Alloc

/-- Each call keeps the allocator context 5. -/
example (m' : Mem) (v' : Buf) (h : Vec.un 8 (fun _ => .moved) ⟨[⟨0, 16, 5⟩, ⟨1, 9, 0⟩], 2⟩ ⟨some 0, 2, 2, 5⟩ .push = some (m', v')) : v'.aux = 5 :=
  vec_aux_kept _ _ _ _ _ _ _ h
example : (Vec.un 8 (fun _ => .moved) ⟨[⟨0, 16, 5⟩, ⟨1, 9, 0⟩], 2⟩ ⟨some 0, 2, 2, 5⟩ .push).isSome := by decide +kernel

example (m' : Mem) (v' : Buf) (h : Stack.un 8 (fun _ => .moved) ⟨[⟨0, 16, 5⟩, ⟨1, 9, 0⟩], 2⟩ ⟨some 0, 2, 2, 5⟩ .push = some (m', v')) : v'.aux = 5 :=
  stack_aux_kept 8 (by decide) _ _ _ _ _ _ [⟨1, 9, 0⟩] (.refl _) h

example (m' : Mem) (v' : Buf) (h : PQ.un 8 (fun _ => .moved) ⟨[⟨0, 16, 5⟩, ⟨1, 9, 0⟩], 2⟩ ⟨some 0, 2, 2, 5⟩ .push = some (m', v')) : v'.aux = 5 :=
  pqueue_aux_kept _ _ _ _ _ _ _ h
example : (PQ.un 8 (fun _ => .moved) ⟨[⟨0, 16, 5⟩, ⟨1, 9, 0⟩], 2⟩ ⟨some 0, 2, 2, 5⟩ .push).isSome := by decide +kernel

example (m' : Mem) (t' : Sm) (h : Sm.un 8 (fun _ => .moved) ⟨[⟨0, 24, 5⟩], 1⟩ ⟨some 0, 2, 0, 2, 2, 5⟩ .insert = some (m', t')) : t'.aux = 5 :=
  smap_aux_kept_partial _ _ _ _ _ _ _ (by simp) h

end Verif.Alloc

namespace Verif.Own
open Spec

/-- A container with the element 10, for both kinds. -/
theorem one_element (k : Kind) : ∃ (s : St Nat) (m : Vals Nat), Reach k s m ∧ m 0 = some [10] ∧ Legal m (.clone 1 0 (some (8, 2))) ∧
    Granted k s (.clone 1 0 (some (8, 2))) := by
  have r0 := Reach.start (ν := Nat) (k := k)
  have r1 := r0.step (op := .init 0) (by simp [Legal, Spec.step]) (Or.inr trivial) rfl rfl
  have r2 := r1.step (op := .insert 0 0 10 (some (7, 4))) (by simp [Legal, Spec.step, set]) (Or.inr trivial) rfl rfl
  refine ⟨_, _, r2, rfl, by simp [Legal, Spec.step, set], Or.inr ?_⟩
  intro h b hd
  change some (some 7, (⟨4, [(0, 10)]⟩ : Blk Nat)) = some (h, b) at hd
  cases hd
  decide

example (k : Kind) : ∃ s t : St Nat, ∃ m' r, step k s (.clone 1 0 (some (8, 2))) = some (t, r) ∧ Reach k t m' ∧ values s 0 = some [10] ∧ (t.gone.map (·.1)).Nodup := by
  obtain ⟨s, m, h, h0, hl, hg⟩ := one_element k
  obtain ⟨t, r, m', e1, -, e3⟩ := own_safe_partial h hl hg
  exact ⟨s, t, m', r, e1, e3, own_values h h0, (own_once e3).1⟩

end Verif.Own

namespace Verif.Regex

/-- Compiling `(a` and then `a`: the second result is the one of a fresh object. -/
example (m' m1 : Alloc.Mem) (o' o1 : Obj) (h : compileAll 48 16 ⟨[], 0⟩ Obj.zero ([⟨mv, false, false, [40, 97]⟩] ++ [⟨mv, false, false, [97]⟩]) = some (m', o'))
    (h1 : compilePro 48 16 mv ⟨[], 0⟩ Obj.zero false false [97] = some (m1, o1)) :=
  compile_history (S := 48) (I := 16) (W := 6400) (by decide) [⟨mv, false, false, [40, 97]⟩] ⟨mv, false, false, [97]⟩ _ _ _ _ _ _ _ h h1

theorem paren_defined : regcomp false false 2 [40, 97] ≠ .ub := by
  intro h
  have : (match regcomp false false 2 [40, 97] with | .ub => true | _ => false) = false := by decide +kernel
  rw [h] at this
  cases this

example := compile_memory_partial (S := 48) (I := 16) (as := mv) (m := ⟨[], 0⟩) (o := Obj.zero) (ic := false) (dot := false) (s := [40, 97]) (F := [])
  (by decide) paren_defined empty_mem (.inr rfl) (by unfold Moves; decide) (.refl _)

example (m' : Alloc.Mem) (o' : Obj) (h : compilePro 48 16 mv ⟨[], 0⟩ Obj.zero false false [40, 97] = some (m', o')) := compile_result (by decide) h

end Verif.Regex

namespace Verif.Coro

/-- The even numbers, squared, the first three: the generator is cleaned up once. -/
example : ∃ c', filterG natGen [.filt (· % 2 == 0), .map (fun x => x * x), .coTake 3] 5 20 natStart .init = some ([0, 4, 16], c') ∧ c'.state = DONE ∧ c'.entered = 1 := by
  refine ⟨⟨DONE, (4, false), 1⟩, rfl, ?_⟩
  refine filter_generator_cleanup_partial natGen_good (ss := [.filt (· % 2 == 0), .map (fun x => x * x), .coTake 3]) ?_ (F := 5) (f := 20) (d := (7, true)) (c := natStart) (ys := [0, 4, 16]) rfl rfl rfl
  intro s hs
  simp only [List.mem_cons, List.not_mem_nil, or_false] at hs
  rcases hs with rfl | rfl | rfl <;> exact ⟨fun _ h => (by cases h), fun _ h => (by cases h)⟩

example := filter_generator_partial (G := natGen) (ss := [.filt (· % 2 == 0), .map (fun x => x * x), .coTake 3]) (F := 5) (f := 20) (c := natStart)
  (c' := ⟨DONE, (4, false), 1⟩) (ys := [0, 4, 16]) (by decide) (by decide) (by decide) rfl

open Spec

/-- A ring of the fibers 1 and 2; 3 joins it. -/
example : ∃ s s', IsRing s 1 [2] ∧ spawn s 2 3 = some s' ∧ ∃ r, IsRing s' 1 r ∧ (1 :: r).Perm [3, 1, 2] := by
  obtain ⟨s, r, h1, h2, h3, -, h5⟩ := spawn_ok (newFiber_isRing (a := 1) (by decide)) (x := 1) (a := 2) (by simp) (by simp) (by decide)
  have hr : r = [2] := by simpa [insAfter] using h3
  subst hr
  have hm : ∀ f, f ∈ s.live ↔ f ∈ [1, 2] := fun f => h2.live.mem_iff
  obtain ⟨s', r', e1, e2, e3, -⟩ := fiber_spawn_joins h2 (x := 2) (a := 3) ((hm 2).2 (by decide)) (fun h => absurd ((hm 3).1 h) (by decide)) (by decide)
  exact ⟨s, s', h2, e1, r', e2, e3⟩

/-- Both fibers are resumed in eight rounds, and the ring is kept. -/
example : ∃ s, IsRing s 1 [2] ∧ (∃ s' it new, runFiber s 1 (List.replicate 8 ⟨[], false⟩) = some (s', it) ∧ s'.resumed = s.resumed ++ new ∧ 2 ∈ new) ∧
    ∃ s' it, runFiber s 1 (List.replicate 8 ⟨[], false⟩) = some (s', it) ∧ ((it = 0 ∧ s'.live = [] ∧ s'.made.Perm s'.freed) ∨ ∃ r, IsRing s' it r) := by
  obtain ⟨s, r, h1, h2, h3, -, h5⟩ := spawn_ok (newFiber_isRing (a := 1) (by decide)) (x := 1) (a := 2) (by simp) (by simp) (by decide)
  have hr : r = [2] := by simpa [insAfter] using h3
  subst hr
  have hv : ValidRun [1, 2] (List.replicate 8 ⟨[], false⟩) := by simp [List.replicate, ValidRun, ValidSpawns, NoLoss]
  exact ⟨s, h2, fiber_every_live_resumed_partial h2 hv (h2.live.mem_iff.2 (by decide)) (by rw [h2.live.length_eq]; decide), fiber_ring_kept h2 hv⟩

/-- The stopped counter: its sequential run is carried out by calls. -/
example : ∃ st d f st' v, Hist counter (5, false) [⟨1#32, id, true⟩, ⟨2#32, id, false⟩] st d ∧ callCo counter f st d = some (st', (100, false), v) ∧ st' = DONE := by
  have h : callCo counter 20 17 (0, false) = some (DONE, (100, false), 0) := by decide
  obtain ⟨st, d, f, st', v, e1, e2, e3, -⟩ := coroutine_complete counter_written ((coroutine_sequential counter_written counter_stopped h).1 rfl).2
  exact ⟨st, d, f, st', v, e1, e2, e3.2 rfl⟩

namespace Proc
open Verif.Coro.Proc.Spec

example (x : Cfg (List Nat) × List (List Nat → List Nat)) (h : play doc 60 (start doc 0 [], [id, id, id, id]) = some x) := task_sequential doc_written h

example : ∃ res n x, call doc 20 0 [] [id, id, id, id, id] = some res ∧ play doc n (start doc 0 [], [id, id, id, id, id]) = some x ∧ Agree x res := by
  cases h : call doc 20 0 [] [id, id, id, id, id] with
  | none => exact absurd (congrArg Option.isSome h) (by decide)
  | some res =>
    have hw : res.2.2 = .over 0 := by
      have : (call doc 20 0 [] [id, id, id, id, id]).map (fun x => x.2.2) = some (.over 0) := by decide
      rw [h] at this
      exact Option.some.inj this
    obtain ⟨n, x, e1, e2⟩ := task_complete doc_written h (by rw [hw]; simp)
    exact ⟨res, n, x, rfl, e1, e2⟩

end Proc

end Verif.Coro

namespace Verif.Coption

example : get ⟨2, 0, none, none, 4, 0, 2⟩ [bytes "p", bytes "-x", bytes "a", bytes "b"] (some (bytes "x")) none =
    some (-1, ⟨2, 0, none, none, 4, 0, 2⟩, [bytes "p", bytes "-x", bytes "a", bytes "b"]) :=
  coption_end_again_partial (o := ⟨2, 0, none, none, 4, 0, 2⟩) (argv := [bytes "p", bytes "-x", bytes "a", bytes "b"]) (by decide) (by decide) (fun ls h => by cases h) rfl

example := coption_reports (some (bytes "x:")) none (bytes "p") [bytes "a", bytes "-x", bytes "7"] ⟨by decide, fun ls h => (by cases h), fun ls h => (by cases h)⟩

end Verif.Coption

namespace Verif.Random

example := shuffle_streams (l := ["a", "b", "c"]) (l' := ["c", "a", "b"]) (by decide) (by decide) (by decide)

end Verif.Random

namespace Verif.Fmt

example := fmt_types_fit (m := ⟨some true, ['+'], ['1', '0'], none, none⟩) (t := .double) rfl
example := fmt_explicit (m := ⟨none, [], ['8'], none, some (['l'], 'x')⟩) (t := .ulong) rfl

end Verif.Fmt

namespace Verif.Cost

example : ∃ s s' : Stack.Stack Nat, Stack.Spec.Reach none s [1, 2] ∧ s'.cap = 2 ∧ ∃ b x, Stack.step none s (.shrinkToFit true) = some (s', b, x) := by
  have h1 := Stack.Spec.Reach.call (fixed := none) (o := .push true 1) (Stack.Spec.Reach.init (α := Nat)) (by decide) rfl
  have h2 := Stack.Spec.Reach.call (o := .push true 2) h1 (by decide) rfl
  exact ⟨_, _, h2, stack_shrink_partial h2 (by decide) rfl, _, _, rfl⟩

end Verif.Cost
