import Verif.Deque.Iter
/- Properties of `deque` and `queue` (C05 - C09, C72). -/
namespace Verif.Deque
open Spec
variable {α : Type}

/-- C05. After any history of valid calls the deque is indistinguishable from the list produced
by the same edits, however its contents wrap around in the ring buffer: same length, same
element at each index (with the index check firing exactly outside), front and back agree,
and every further valid call is free of undefined behaviour, hands out the specified element
and destroys exactly the specified elements. -/
theorem deque_sequence {d : Deque α} {l : List α} (h : Reach d l) :
    size d = l.length ∧ (isEmpty d = true ↔ l = []) ∧ (∀ i, at' d i = l[i]?) ∧
    (l ≠ [] → front d = l.head? ∧ back d = l.getLast?) ∧
    ∀ o, valid l o → ∃ d' r, step d o = some (d', r) ∧ r.out = out l o ∧
      d'.dropped = d.dropped ++ destroyed l o := by
  have hr := reach_rep h
  refine ⟨hr.size, hr.isEmpty, at_spec hr, fun hl => ⟨front_spec hr hl, back_spec hr hl⟩, fun o hv => ?_⟩
  obtain ⟨d', r, e1, _, e3, e4⟩ := step_spec hr o hv
  exact ⟨d', r, e1, e3, e4⟩

/-- A deque whose contents `[4, 5]` wrap around the end of the buffer. -/
def exDeque : Deque Nat := ⟨some [some 5, none, none, some 4], 3, 1, 3, [1, 2, 3]⟩

theorem reach_exDeque : Reach exDeque [4, 5] := by
  have h1 := Reach.call (o := .push true 1) Reach.init (by decide) rfl
  have h2 := Reach.call (o := .push true 2) h1 (by decide) rfl
  have h3 := Reach.call (o := .push true 3) h2 (by decide) rfl
  have h4 := Reach.call (o := .pop) h3 (by decide) rfl
  have h5 := Reach.call (o := .pop) h4 (by decide) rfl
  have h6 := Reach.call (o := .push true 4) h5 (by decide) rfl
  have h7 := Reach.call (o := .pop) h6 (by decide) rfl
  exact Reach.call (o := .push true 5) h7 (by decide) rfl

/-- The same, grown by an insertion in the middle. -/
example : ∃ d, Reach d [4, 8, 9, 5] := by
  have h8 := Reach.call (o := .insertN true 1 [8, 9]) reach_exDeque (by decide) rfl
  exact ⟨_, h8⟩

example : size exDeque = 2 ∧ at' exDeque 1 = some 5 ∧ at' exDeque 2 = none :=
  ⟨(deque_sequence reach_exDeque).1, (deque_sequence reach_exDeque).2.2.1 1,
    (deque_sequence reach_exDeque).2.2.1 2⟩

/-- C05, clone: with a successful allocation the clone holds the same sequence and supports
further calls like any deque (it satisfies the representation invariant used for all the
other theorems, hence iteration and access agree with the source). -/
theorem deque_clone {d : Deque α} {l : List α} (h : Reach d l) (hl : l.length < maxLen) :
    ∃ e, clone true d = some e ∧ size e = l.length ∧ (∀ i, at' e i = l[i]?) ∧
      (∀ fuel, l.length ≤ fuel → each e fuel = some l) ∧
      ∀ o, valid l o → ∃ e' r, step e o = some (e', r) ∧ r.out = out l o ∧
        (∀ i, at' e' i = (after l r.ok o)[i]?) := by
  obtain ⟨e, e1, e2, _⟩ := clone_spec (reach_rep h) true hl (.inl rfl)
  refine ⟨e, e1, e2.size, at_spec e2, fun fuel hf => each_spec e2 fuel hf, fun o hv => ?_⟩
  obtain ⟨e', r, f1, f2, f3, _⟩ := step_spec e2 o hv
  exact ⟨e', r, f1, f3, at_spec f2⟩

example : ∃ e, clone true exDeque = some e ∧ at' e 1 = some 5 := by
  obtain ⟨e, h1, _, h2, _⟩ := deque_clone reach_exDeque (by decide)
  exact ⟨e, h1, h2 1⟩

/-- C05/C09, a defect of clone: when its allocation fails the result is not a valid deque: it
claims size 0 but is not empty, and a later (successful) push writes outside its buffer. -/
theorem deque_clone_failure_broken :
    ∃ (d : Deque Nat) (l : List Nat), Reach d l ∧ ∃ e, clone false d = some e ∧ size e = 0 ∧ isEmpty e = false ∧
      pop e = none ∧ push true e 9 = none := by
  have h1 := Reach.call (o := .insertN true 0 [1, 2, 3, 4]) Reach.init (by decide) rfl
  exact ⟨_, _, h1, _, rfl, rfl, rfl, rfl, rfl⟩

/-- C05, equality test. -/
theorem deque_eq {d e : Deque α} {l m : List α} (h : Reach d l) (h' : Reach e m) (eq : α → α → Bool) :
    ∃ r, Deque.eq d e eq = some r ∧ (r = true ↔
      l.length = m.length ∧ ∀ (j : Nat) x y, l[j]? = some x → m[j]? = some y → eq x y = true) := by
  have hr := reach_rep h
  have hr' := reach_rep h'
  unfold Deque.eq
  rw [hr.size, hr'.size]
  by_cases hlm : l.length = m.length
  · rw [if_neg (by simpa using hlm)]
    by_cases h0 : l = []
    · subst h0
      have hb : (begin d).ref = none := by simp [begin, hr.isEmpty.2]
      exact ⟨true, by simp [eqFrom, hb], by simp; simpa using hlm⟩
    · have h0' : m ≠ [] := by
        intro hm; subst hm; simp at hlm; exact h0 hlm
      obtain ⟨b, hd, _⟩ := hr.blk_of_ne h0
      obtain ⟨c, hd', _⟩ := hr'.blk_of_ne h0'
      obtain ⟨V, hV, ht⟩ := hr.view (by simp [hd])
      obtain ⟨W, hW, ht'⟩ := hr'.view (by simp [hd'])
      obtain ⟨r, e1, e2⟩ := eqFrom_view eq hV ht hW ht' hlm l.length 0 (d.capmask + 1) (by omega)
        (by have := hr.len; omega)
      refine ⟨r, by rw [begin_view hV, begin_view hW, e1], e2.trans ?_⟩
      exact ⟨fun hh => ⟨hlm, fun j x y => hh j (Nat.zero_le _) x y⟩, fun hh j _ x y => hh.2 j x y⟩
  · rw [if_pos (by simpa using hlm)]
    exact ⟨false, rfl, by simp [hlm]⟩

example : ∃ r, Deque.eq exDeque exDeque (· == ·) = some r ∧ r = true := by
  obtain ⟨r, e1, e2⟩ := deque_eq reach_exDeque reach_exDeque (fun x y => x == y)
  refine ⟨r, e1, e2.2 ⟨rfl, ?_⟩⟩
  intro j x y hx hy
  rw [hx] at hy
  simpa using hy

/-- C06. FIFO: the elements taken out of a queue, in the order the caller observed them,
followed by the elements still in it, are exactly the elements pushed, in order — under any
interleaving of push, pop, pull, reserve, shrink_to_fit and clear and any failing allocations. -/
theorem queue_fifo {d : Deque α} {ins outs : List α} (h : Queue d ins outs) :
    ∃ l, (∀ fuel, l.length ≤ fuel → each d fuel = some l) ∧ size d = l.length ∧ ins = outs ++ l := by
  suffices hs : ∃ l, Reach d l ∧ ins = outs ++ l by
    obtain ⟨l, h1, h2⟩ := hs
    exact ⟨l, fun fuel => each_spec (reach_rep h1) fuel, (reach_rep h1).size, h2⟩
  induction h with
  | init => exact ⟨[], .init, rfl⟩
  | @call d d' ins outs l o r hq hrc hv hop hstep ih =>
    obtain ⟨l', hr', hins⟩ := ih
    -- the list held by a deque is unique
    have hll : l' = l := by
      have h1 := each_spec (reach_rep hr') (l'.length + l.length) (by omega)
      have h2 := each_spec (reach_rep hrc) (l'.length + l.length) (by omega)
      rw [h1] at h2
      simpa using h2
    subst hll
    refine ⟨after l' r.ok o, .call hrc hv hstep, ?_⟩
    obtain ⟨w, q, e1, _, e3, e4⟩ := step_spec (reach_rep hrc) o hv
    rw [hstep] at e1
    simp only [Option.some.injEq, Prod.mk.injEq] at e1
    obtain ⟨rfl, rfl⟩ := e1
    rw [e3, e4, hins, List.drop_append_of_le_length (by omega), List.drop_of_length_le (by omega)]
    cases o with
    | push ok x => cases hr : r.ok <;> simp [after, entered, out, destroyed]
    | pop => cases l' <;> simp [after, entered, out, destroyed]
    | pull => cases l' <;> simp [after, entered, out, destroyed]
    | reserve ok cap => simp [after, entered, out, destroyed]
    | shrinkToFit ok => simp [after, entered, out, destroyed]
    | clear => simp [after, entered, out, destroyed]
    | _ => simp [isQueueOp] at hop

example : ∃ d : Deque Nat, Queue d [7, 8] [7] := by
  have h1 := Queue.call (o := .push true 7) Queue.init Reach.init (by decide) rfl rfl
  have r1 := Reach.call (o := .push true 7) Reach.init (by decide) rfl
  have h2 := Queue.call (o := .push true 8) h1 r1 (by decide) rfl rfl
  have r2 := Reach.call (o := .push true 8) r1 (by decide) rfl
  exact ⟨_, Queue.call (o := .pull) h2 r2 (by decide) rfl rfl⟩

/-- C07. Forward iteration visits the elements in index order exactly once and ends, reverse
iteration visits them in the opposite order; standing at the `i`-th element, `advance(n)`
gives the same iterator as `n` calls of `next` (NULL once past the end), and the iterator
after `i` steps refers to element `i`. -/
theorem deque_iterate {d : Deque α} {l : List α} (h : Reach d l) :
    (∀ fuel, l.length ≤ fuel → each d fuel = some l ∧ eachReverse d fuel = some l.reverse) ∧
    (∀ i, i ≤ l.length → ∃ it, nexts d (begin d) i = some it ∧ deref d it = l[i]? ∧
      ∀ n, i < l.length → i + n ≤ l.length → advance d it n = nexts d it n) ∧
    (∀ i n, i < l.length → l.length < i + n → ∃ it it', nexts d (begin d) i = some it ∧
      advance d it n = some it' ∧ it'.ref = none) := by
  have hr := reach_rep h
  refine ⟨fun fuel hf => ⟨each_spec hr fuel hf, eachReverse_spec hr fuel hf⟩, fun i hi => ?_, fun i n hi hn => ?_⟩
  · refine ⟨_, nexts_begin hr i hi, deref_iterOf hr i, fun n hlt hin => ?_⟩
    obtain ⟨b, hb, _⟩ := hr.blk_of_ne (by intro h0; simp [h0] at hlt)
    obtain ⟨V, hV, ht⟩ := hr.view (by simp [hb])
    rw [advance_view hV hlt, nexts_view hV n hin]
  · obtain ⟨b, hb, _⟩ := hr.blk_of_ne (by intro h0; simp [h0] at hi)
    obtain ⟨V, hV, ht⟩ := hr.view (by simp [hb])
    refine ⟨_, _, nexts_begin hr i (by omega), advance_view hV hi, ?_⟩
    simp [iterOf]; omega

example : each exDeque 2 = some [4, 5] ∧ eachReverse exDeque 2 = some [5, 4] :=
  (deque_iterate reach_exDeque).1 2 (by decide)

/-- C08 (partial: iterators reached by stepping from `begin`, including the past-the-end one
reached that way; for the iterator returned by `end()` see `deque_end_iterator_wrong`).
`insert_at` inserts before the iterator and returns an iterator to the new element;
`erase_at` and `erase_range` remove exactly the designated elements and return an iterator to
the element that followed them. -/
theorem deque_iter_edit_partial {d : Deque α} {l : List α} (h : Reach d l) (i : Nat) (hi : i ≤ l.length) :
    ∃ it, nexts d (begin d) i = some it ∧
    (∀ x, l.length + 1 < maxLen → ∃ d' it', insertAt true d it x = some (d', it') ∧
      (∀ k, at' d' k = (l.take i ++ [x] ++ l.drop i)[k]?) ∧ deref d' it' = some x) ∧
    (i < l.length → ∃ d' it', eraseAt d it = some (d', it') ∧
      (∀ k, at' d' k = (l.take i ++ l.drop (i + 1))[k]?) ∧ deref d' it' = l[i + 1]? ∧
      (it'.ref = none ↔ i + 1 = l.length)) ∧
    (∀ j, i ≤ j → j ≤ l.length → ∃ it2 d' it', nexts d (begin d) j = some it2 ∧
      eraseRange d it it2 = some (d', it') ∧
      (∀ k, at' d' k = (l.take i ++ l.drop j)[k]?) ∧ deref d' it' = l[j]?) := by
  have hr := reach_rep h
  have hlen := hr.len
  have hst := hr.start
  refine ⟨_, nexts_begin hr i hi, fun x hmax => ?_, fun hlt => ?_, fun j hij hj => ?_⟩
  · obtain ⟨d', it', e1, e2, e3, e4, e5⟩ := insertN_spec hr i [x] hi (by unfold maxLen at hmax; simpa using hmax) (by simp)
    refine ⟨d', it', ?_, at_spec e2, ?_⟩
    · simp only [insertAt, iterOf, hr.toidx (show i ≤ d.capmask by omega), e1]
    · have h5 : it' = iterOf d'.start d'.capmask (l.take i ++ [x] ++ l.drop i).length i := by
        rw [e5, iterOf, if_pos (by simp; omega)]
      rw [h5, deref_iterOf e2, List.append_assoc, List.getElem?_append_right (by simp)]
      have : i - (l.take i).length = 0 := by simp; omega
      rw [this]; rfl
  · obtain ⟨d', e1, e2, e3, e4, e5⟩ := eraseN_spec hr i 1 (by omega)
    have hl' : (l.take i ++ l.drop (i + 1)).length = l.length - 1 := by simp; omega
    have hit : (if (iterOf d.start d.capmask l.length i).pos = d'.fin then
        { iterOf d.start d.capmask l.length i with ref := none } else iterOf d.start d.capmask l.length i) =
        iterOf d'.start d'.capmask (l.take i ++ l.drop (i + 1)).length i := by
      rw [e2.fin, e4, e5, hl']
      by_cases hc : i + 1 = l.length
      · have : i = l.length - 1 := by omega
        simp [iterOf, ← this]
      · have hne : (iterOf d.start d.capmask l.length i).pos ≠ (d.start + (l.length - 1)) % (d.capmask + 1) := by
          intro hh
          have := mod_inj (N := d.capmask + 1) (by omega) (by omega) hh
          omega
        rw [if_neg hne]
        simp only [iterOf]
        rw [if_pos hlt, if_pos (by omega)]
    refine ⟨d', iterOf d'.start d'.capmask (l.take i ++ l.drop (i + 1)).length i, ?_, at_spec e2, ?_, ?_⟩
    · rw [← hit]
      simp only [eraseAt]
      rw [show toidx d (iterOf d.start d.capmask l.length i).pos = i from hr.toidx (by omega), e1]
      rfl
    · rw [deref_iterOf e2, List.getElem?_append_right (by simp)]
      have : i - (l.take i).length = 0 := by simp; omega
      rw [this]; simp
    · rw [hl']
      simp [iterOf]; omega
  · obtain ⟨d', e1, e2, e3, e4, e5⟩ := eraseN_spec hr i (j - i) (by omega)
    rw [show i + (j - i) = j by omega] at e2
    have hl' : (l.take i ++ l.drop j).length = l.length - (j - i) := by simp; omega
    have hit : (if (iterOf d.start d.capmask l.length i).pos = d'.fin then
        { iterOf d.start d.capmask l.length i with ref := none } else iterOf d.start d.capmask l.length i) =
        iterOf d'.start d'.capmask (l.take i ++ l.drop j).length i := by
      rw [e2.fin, e4, e5, hl']
      by_cases hc : j = l.length
      · have : i = l.length - (j - i) := by omega
        simp [iterOf, ← this]
      · have hne : (iterOf d.start d.capmask l.length i).pos ≠ (d.start + (l.length - (j - i))) % (d.capmask + 1) := by
          intro hh
          have := mod_inj (N := d.capmask + 1) (by omega) (by omega) hh
          omega
        rw [if_neg hne]
        simp only [iterOf]
        rw [if_pos (show i < l.length by omega), if_pos (show i < l.length - (j - i) by omega)]
    refine ⟨_, d', iterOf d'.start d'.capmask (l.take i ++ l.drop j).length i, nexts_begin hr j hj, ?_, at_spec e2, ?_⟩
    · rw [← hit]
      simp only [eraseRange]
      rw [show toidx d (iterOf d.start d.capmask l.length i).pos = i from hr.toidx (by omega),
        show toidx d (iterOf d.start d.capmask l.length j).pos = j from hr.toidx (by omega), guard_pos hij]
      simp only [Option.bind_eq_bind, Option.bind_some, e1]
    · rw [deref_iterOf e2, List.getElem?_append_right (by simp)]
      have : i - (l.take i).length = 0 := by simp; omega
      rw [this]; simp

example : ∃ it, nexts exDeque (begin exDeque) 1 = some it ∧
    ∃ d' it', insertAt true exDeque it 9 = some (d', it') ∧ at' d' 1 = some 9 := by
  obtain ⟨it, h1, h2, _⟩ := deque_iter_edit_partial reach_exDeque 1 (by decide)
  obtain ⟨d', it', h3, h4, _⟩ := h2 9 (by decide)
  exact ⟨it, h1, d', it', h3, h4 1⟩

/-- C08, refutation for the iterator returned by `end()`: `erase_range(begin, end)` leaves an
element behind, and `insert_at(end, x)` inserts before the last element. -/
theorem deque_end_iterator_wrong :
    ∃ d : Deque Nat, Reach d [4, 5] ∧
      (∃ d' it, eraseRange d (begin d) endIter = some (d', it) ∧ size d' = 1 ∧ at' d' 0 = some 5) ∧
      (∃ d' it, insertAt true d endIter 9 = some (d', it) ∧ at' d' 0 = some 4 ∧ at' d' 1 = some 9 ∧ at' d' 2 = some 5) :=
  ⟨exDeque, reach_exDeque, ⟨_, _, rfl, rfl, rfl⟩, _, _, rfl, rfl, rfl, rfl⟩

/-- C09 (partial: all calls except `insert_n`, for which see `deque_insert_failure_unchecked`).
A call that reports failure leaves the deque exactly as it was, and failure is only reported
when the allocator failed (or nothing was requested). -/
theorem deque_alloc_failure_partial {d d' : Deque α} {l : List α} {o : Op α} {r : Reply α}
    (h : Reach d l) (hv : valid l o) (hs : step d o = some (d', r)) (hr : r.ok = false)
    (hno : ∀ ok idx arr, o ≠ .insertN ok idx arr) :
    d' = d ∧ (allocOk o = false ∨ vacuous o) := by
  have hrep := reach_rep h
  cases o with
  | push ok x =>
    obtain ⟨e, q, e1, e2, e3, e4⟩ := push_spec hrep ok x hv
    simp only [step, e1, Option.bind_eq_bind, Option.bind_some, Option.some.injEq, Prod.mk.injEq] at hs
    obtain ⟨rfl, rfl⟩ := hs
    exact ⟨(e4 hr).1, .inl (e4 hr).2⟩
  | pushFront ok x =>
    obtain ⟨e, q, e1, e2, e3, e4⟩ := pushFront_spec hrep ok x hv
    simp only [step, e1, Option.bind_eq_bind, Option.bind_some, Option.some.injEq, Prod.mk.injEq] at hs
    obtain ⟨rfl, rfl⟩ := hs
    exact ⟨(e4 hr).1, .inl (e4 hr).2⟩
  | reserve ok cap =>
    have hv' : cap < 2 ^ 61 := hv
    obtain ⟨e, q, e1, e2, e3, e4, e5⟩ := reserve_spec hrep ok cap (by unfold fits; omega)
    simp only [step, e1, Option.bind_eq_bind, Option.bind_some, Option.some.injEq, Prod.mk.injEq] at hs
    obtain ⟨rfl, rfl⟩ := hs
    refine ⟨(e5 hr).1, ?_⟩
    cases ok
    · exact .inl rfl
    · exact .inr ((e5 hr).2 rfl).1
  | insertN ok idx arr => exact absurd rfl (hno ok idx arr)
  | pop =>
    obtain ⟨e, q, e1, -⟩ := (deque_sequence h).2.2.2.2 _ hv
    simp only [step] at hs
    cases hp : pop d <;> simp [hp] at hs
    rw [← hs.2] at hr; simp at hr
  | pull =>
    simp only [step] at hs
    cases hp : pull d <;> simp [hp] at hs
    rw [← hs.2] at hr; simp at hr
  | popBack =>
    simp only [step] at hs
    cases hp : popBack d <;> simp [hp] at hs
    rw [← hs.2] at hr; simp at hr
  | pullBack =>
    simp only [step] at hs
    cases hp : pullBack d <;> simp [hp] at hs
    rw [← hs.2] at hr; simp at hr
  | eraseN idx n =>
    simp only [step] at hs
    cases hp : eraseN d idx n <;> simp [hp] at hs
    rw [← hs.2] at hr; simp at hr
  | shrinkToFit ok =>
    simp only [step] at hs
    cases hp : shrinkToFit ok d <;> simp [hp] at hs
    rw [← hs.2] at hr; simp at hr
  | clear =>
    simp only [step] at hs
    cases hp : clear d <;> simp [hp] at hs
    rw [← hs.2] at hr; simp at hr
  | replace idx x =>
    simp only [step] at hs
    cases hp : at' d idx <;> simp [hp] at hs
    cases hq : setAt d idx x <;> simp [hq] at hs
    rw [← hs.2] at hr; simp at hr

/-- A full deque whose push fails. -/
example : ∃ d d' r, Reach d [1, 2, 3] ∧ step d (.pushFront false 9) = some (d', r) ∧ r.ok = false := by
  have h1 := Reach.call (o := .push true 1) Reach.init (by decide) rfl
  have h2 := Reach.call (o := .push true 2) h1 (by decide) rfl
  have h3 := Reach.call (o := .push true 3) h2 (by decide) rfl
  exact ⟨_, _, _, h3, rfl, rfl⟩

/-- C09, capacity: a successful `reserve(n)` guarantees that pushes up to size `n` succeed even
if no further allocation does. -/
theorem deque_reserve {d d' : Deque α} {l : List α} {n : Nat} {ok : Bool} (h : Reach d l) (hn : n < maxLen)
    (hs : reserve ok d n = some (d', true)) (hl : l.length < n) (x : α) :
    ∃ e, push false d' x = some (e, true) := by
  have hn' : n < 2 ^ 61 := hn
  obtain ⟨d1, r, e1, e2, e3, e4, e5⟩ := reserve_spec (reach_rep h) ok n (by unfold fits; omega)
  rw [hs] at e1
  simp only [Option.some.injEq, Prod.mk.injEq] at e1
  obtain ⟨rfl, rfl⟩ := e1
  obtain ⟨hcap, _⟩ := e4 rfl
  obtain ⟨b, b', hb, hb', _⟩ := push_store e2 (by omega) x
  obtain ⟨k, hk⟩ := e2.pow
  have he : Common.land ((d'.fin : Int) + 1) d'.capmask = (d'.start + l.length + 1) % (d'.capmask + 1) := by
    rw [e2.fin]
    exact_mod_cast land_inc (s := d'.start + l.length) (n := 1) hk
  have hne : Common.land ((d'.fin : Int) + 1) d'.capmask ≠ d'.start := by
    rw [he]
    intro hh
    have := (full_iff e2.start e2.len).1 hh
    omega
  refine ⟨{ d' with cbuf := some b', fin := Common.land ((d'.fin : Int) + 1) d'.capmask }, ?_⟩
  simp only [push, if_neg hne, hb, hb', Option.bind_eq_bind, Option.bind_some]

example : ∃ d', reserve true exDeque 6 = some (d', true) := ⟨_, rfl⟩

/-- C09, refutation for `insert_n`: when its allocation fails it reports failure, but the
elements are stored anyway, over existing ones (which are neither kept nor destroyed); and
when there are not enough elements to overwrite, it accesses memory out of range. -/
theorem deque_insert_failure_unchecked :
    ∃ d : Deque Nat, Reach d [1, 2, 3] ∧
      (∃ d' it, insertN false d 0 [9] = some (d', it) ∧ it.ref = none ∧ at' d' 0 = some 9 ∧
        size d' = 3 ∧ d'.dropped = d.dropped) ∧
      insertN false d 3 [9] = none := by
  have h1 := Reach.call (o := .push true 1) Reach.init (by decide) rfl
  have h2 := Reach.call (o := .push true 2) h1 (by decide) rfl
  have h3 := Reach.call (o := .push true 3) h2 (by decide) rfl
  exact ⟨_, h3, ⟨_, _, rfl, rfl, rfl, rfl, rfl⟩, rfl⟩

/-- C72 for deque. Conservation of elements: the elements that entered are exactly (as a
multiset) those still stored, those handed to the caller and those destroyed; `drop` destroys
the stored ones. -/
theorem deque_ownership {d : Deque α} {l ent outs : List α} (h : Own d l ent outs) :
    Reach d l ∧ (l ++ outs ++ d.dropped).Perm ent ∧
    ∃ log, drop d = some log ∧ (outs ++ log).Perm ent := by
  suffices hs : Reach d l ∧ (l ++ outs ++ d.dropped).Perm ent by
    refine ⟨hs.1, hs.2, ?_⟩
    obtain ⟨d', e1, _, e3⟩ := clear_spec (reach_rep hs.1)
    refine ⟨d'.dropped, by simp [drop, e1], ?_⟩
    rw [e3]
    refine List.Perm.trans ?_ hs.2
    classical
    rw [List.perm_iff_count]
    intro a
    simp only [List.count_append]; omega
  induction h with
  | init => exact ⟨.init, by simp [init]⟩
  | @call d d' l ent outs o r hr hv hs ih =>
    obtain ⟨hreach, hperm⟩ := ih
    refine ⟨.call hreach hv hs, ?_⟩
    obtain ⟨w, q, e1, _, e3, e4⟩ := step_spec (reach_rep hreach) o hv
    rw [hs] at e1
    simp only [Option.some.injEq, Prod.mk.injEq] at e1
    obtain ⟨rfl, rfl⟩ := e1
    rw [e3, e4]
    have hb : (after l r.ok o ++ (out l o).toList ++ destroyed l o).Perm (l ++ entered r.ok o) := by
      generalize r.ok = ok
      cases o with
      | push ok' x => cases ok <;> simp [after, out, destroyed, entered]
      | pushFront ok' x =>
        cases ok <;> simp [after, out, destroyed, entered]
        exact (List.perm_append_singleton x l).symm
      | pop => cases l <;> simp [after, out, destroyed, entered]
      | pull => cases l <;> simp [after, out, destroyed, entered]
      | popBack =>
        have := List.dropLast_concat_getLast (l := l) hv
        simp [after, out, destroyed, entered, List.getLast?_eq_some_getLast hv, this]
      | pullBack =>
        have := List.dropLast_concat_getLast (l := l) hv
        simp [after, out, destroyed, entered, List.getLast?_eq_some_getLast hv, this]
      | insertN ok' idx arr =>
        simp [after, out, destroyed, entered]
        conv => rhs; rw [← List.take_append_drop idx l]
        rw [List.append_assoc]
        exact List.Perm.append_left _ List.perm_append_comm
      | eraseN idx n =>
        simp [after, out, destroyed, entered]
        conv => rhs; rw [← List.take_append_drop idx l, ← List.take_append_drop n (l.drop idx)]
        rw [List.drop_drop]
        exact List.Perm.append_left _ (((List.reverse_perm _).append_left _).trans List.perm_append_comm)
      | reserve ok' cap => simp [after, out, destroyed, entered]
      | shrinkToFit ok' => simp [after, out, destroyed, entered]
      | clear => simp [after, out, destroyed, entered]
      | replace i x =>
        have hv' : i < l.length := hv
        simp only [after, out, destroyed, entered, List.getElem?_eq_getElem hv', Option.toList, List.append_nil]
        rw [List.set_eq_take_append_cons_drop, if_pos hv']
        have hl : l = l.take i ++ l[i] :: l.drop (i + 1) := by
          rw [← List.drop_eq_getElem_cons hv', List.take_append_drop]
        conv => rhs; rw [hl]
        rw [List.append_assoc, List.append_assoc]
        refine List.Perm.append_left _ ?_
        simp only [List.cons_append]
        refine (List.Perm.cons x List.perm_append_comm).trans ?_
        simp only [List.cons_append, List.nil_append]
        refine (List.Perm.swap _ _ _).trans (List.Perm.cons _ ?_)
        exact (List.perm_append_singleton x _).symm
    classical
    rw [List.perm_iff_count] at hb hperm ⊢
    intro a
    have h1 := hb a
    have h2 := hperm a
    simp only [List.count_append] at h1 h2 ⊢
    omega

example : ∃ d : Deque Nat, Own d [7] [7, 8] [8] := by
  have h1 := Own.call (o := .push true 7) Own.init (by decide) rfl
  have h2 := Own.call (o := .push true 8) h1 (by decide) rfl
  exact ⟨_, Own.call (o := .pullBack) h2 (by decide) rfl⟩

end Verif.Deque
