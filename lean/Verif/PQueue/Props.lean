import Verif.PQueue.Lemmas
/- C10, C11, C12 and ownership for `pqueue`. -/
namespace Verif.PQueue
open Spec
variable {α : Type}

theorem reach_inv {less : α → α → Bool} (hw : StrictWeak less) {q : PQ α} {ent outs : List α} {h : Bool}
    (hr : Reach less q ent outs h) :
    q.elems.length ≤ q.cap ∧ (q.elems ++ outs ++ q.dropped).Perm ent ∧
    (h = true → HeapFrom less q.elems 1) := by
  classical
  induction hr with
  | init => exact ⟨by simp [init], by simp [init], fun _ i _ _ x y hx => by simp [init] at hx⟩
  | @call q q' ent outs h o r _ hv he ih =>
    obtain ⟨hc, hp, hh⟩ := ih
    rw [List.perm_iff_count] at hp ⊢
    cases o with
    | push ok x =>
      cases hv
      obtain ⟨q1, e1, p1, d1, c1, h1⟩ := push_spec hw q x hc
      simp [step, e1] at he
      obtain ⟨rfl, rfl⟩ := he
      refine ⟨c1, fun a => ?_, fun hb => h1 (hh hb)⟩
      have := hp a; have hp' := List.perm_iff_count.1 p1 a
      simp only [entered, List.count_append, List.count_cons, List.count_nil, Option.toList, d1] at *
      omega
    | pop =>
      have hv' : 0 < q.elems.length := hv
      obtain ⟨l', e1, p1, h1⟩ := eraseAt_spec hw q 0 hv
      simp only [step, pop, if_neg (show ¬ q.elems.length = 0 by omega), e1, Option.bind_eq_bind,
        Option.bind_some, Option.some.injEq, Prod.mk.injEq] at he
      obtain ⟨rfl, rfl⟩ := he
      have hl := p1.length_eq; simp at hl
      refine ⟨by dsimp only; omega, fun a => ?_, fun hb => h1 (hh hb) (.inl rfl)⟩
      have := hp a; have hp' := List.perm_iff_count.1 p1 a
      simp only [entered, List.count_append, List.count_cons, List.count_nil, Option.toList] at *
      omega
    | eraseAt i =>
      obtain ⟨l', e1, p1, h1⟩ := eraseAt_spec hw q i hv
      simp [step, e1] at he
      obtain ⟨rfl, rfl⟩ := he
      have hl := p1.length_eq; simp at hl
      refine ⟨by dsimp only; omega, fun a => ?_, fun hb => ?_⟩
      · have := hp a; have hp' := List.perm_iff_count.1 p1 a
        simp only [entered, List.count_append, List.count_cons, List.count_nil, Option.toList] at *
        omega
      · simp [ordered] at hb
        exact h1 (hh hb.1) (.inl hb.2)
    | makeHeap =>
      obtain ⟨l', e1, p1, h1⟩ := makeHeap_spec hw q
      simp [step, e1] at he
      obtain ⟨rfl, rfl⟩ := he
      refine ⟨by dsimp only; rw [p1.length_eq]; exact hc, fun a => ?_, fun _ => h1⟩
      have := hp a; have hp' := List.perm_iff_count.1 p1 a
      simp only [entered, List.count_append, List.count_nil, Option.toList] at *
      omega
    | store i x =>
      have hi : i < q.elems.length := hv
      simp [step, List.getElem?_eq_getElem hi] at he
      obtain ⟨rfl, rfl⟩ := he
      refine ⟨by simpa using hc, fun a => ?_, fun hb => by simp [ordered] at hb⟩
      have := hp a
      have e2 : q.elems.count q.elems[i] ≥ 1 := List.count_pos_iff.2 (List.getElem_mem _)
      simp only [entered, List.count_append, List.count_cons, List.count_nil, Option.toList,
        List.count_set hi] at *
      by_cases h1 : q.elems[i] = a <;> by_cases h2 : x = a <;>
        simp only [h1, h2, beq_self_eq_true, if_true, beq_iff_eq, if_false] at * <;> omega
    | reserve ok cap =>
      obtain ⟨b, e1, a1, a2, a3, a4⟩ := reserve_spec ok q cap hv
      simp [step, e1] at he
      obtain ⟨rfl, rfl⟩ := he
      refine ⟨?_, by simpa [entered, a1, a2] using hp, fun hb => by rw [a1]; exact hh hb⟩
      rw [a1]
      rcases a4 hc with h | h
      · exact h
      · simp [reserve] at e1
        rw [if_pos (by omega)] at e1
        cases e1; exact hc
    | shrinkToFit ok =>
      obtain ⟨b, e1, a1, a2, a3, a4⟩ := reserve_spec ok q q.elems.length hv
      simp [step, shrinkToFit, e1] at he
      obtain ⟨rfl, rfl⟩ := he
      refine ⟨?_, by simpa [entered, a1, a2] using hp, fun hb => by rw [a1]; exact hh hb⟩
      rw [a1]
      rcases a4 hc with h | h
      · exact h
      · omega
    | clear =>
      simp [step] at he
      obtain ⟨rfl, rfl⟩ := he
      refine ⟨by simp [clear], fun a => ?_, fun _ i _ _ x y hx => by simp [clear] at hx⟩
      have := hp a
      simp only [entered, clear, List.count_append, List.count_nil, Option.toList, List.count_reverse] at *
      omega

/-- every valid call on a queue within its capacity is defined. -/
theorem step_defined {less : α → α → Bool} (hw : StrictWeak less) {q : PQ α} (hc : q.elems.length ≤ q.cap)
    (o : Op α) (hv : valid q.elems.length o) : ∃ q' r, step less q o = some (q', r) := by
  cases o with
  | push ok x => cases hv; obtain ⟨q1, e1, _⟩ := push_spec hw q x hc; exact ⟨q1, none, by simp [step, e1]⟩
  | pop =>
    have hv' : 0 < q.elems.length := hv
    obtain ⟨l', e1, _⟩ := eraseAt_spec hw q 0 hv
    exact ⟨_, none, by simp only [step, pop, if_neg (show ¬ q.elems.length = 0 by omega), e1]; rfl⟩
  | eraseAt i => obtain ⟨l', e1, _⟩ := eraseAt_spec hw q i hv; exact ⟨_, none, by simp only [step, e1]; rfl⟩
  | makeHeap => obtain ⟨l', e1, _⟩ := makeHeap_spec hw q; exact ⟨_, none, by simp only [step, e1]; rfl⟩
  | store i x => exact ⟨_, _, by simp only [step, List.getElem?_eq_getElem (show i < q.elems.length from hv)]; rfl⟩
  | reserve ok cap =>
    obtain ⟨b, e1, _⟩ := reserve_spec ok q cap hv
    exact ⟨_, none, by simp only [step, e1]; rfl⟩
  | shrinkToFit ok =>
    obtain ⟨b, e1, _⟩ := reserve_spec ok q _ hv
    exact ⟨_, none, by simp only [step, shrinkToFit, e1]; rfl⟩
  | clear => exact ⟨_, _, rfl⟩

/-- C10. After any history of valid calls (`push`, `pop`, `erase_at`, direct stores, `make_heap`,
`reserve`, `shrink_to_fit`, `clear`): stored elements, elements handed back and destroyed ones
are together exactly those that entered; every further valid call is defined; and whenever the
queue is ordered (no direct store or inner `erase_at` since the last `make_heap`), `top` is a
stored element that no stored element exceeds, and `pop` destroys exactly it and removes it. -/
theorem pqueue_top_is_max {less : α → α → Bool} (hw : StrictWeak less) {q : PQ α} {ent outs : List α}
    {h : Bool} (hr : Reach less q ent outs h) :
    (q.elems ++ outs ++ q.dropped).Perm ent ∧
    (∀ o, valid q.elems.length o → ∃ q' r, step less q o = some (q', r)) ∧
    (h = true → q.elems ≠ [] → ∃ x, top q = some x ∧ IsMax less x q.elems ∧
      ∃ q', pop less q = some q' ∧ (x :: q'.elems).Perm q.elems ∧ q'.dropped = q.dropped ++ [x]) := by
  obtain ⟨hc, hp, hh⟩ := reach_inv hw hr
  refine ⟨hp, step_defined hw hc, fun hb hne => ?_⟩
  have hpos : 0 < q.elems.length := List.length_pos_iff.2 hne
  obtain ⟨l', e1, p1, _⟩ := eraseAt_spec hw q 0 hpos
  refine ⟨q.elems[0], List.getElem?_eq_getElem hpos, ⟨List.getElem_mem _, ?_⟩, ?_⟩
  · exact heap_top_max hw (hh hb) (List.getElem?_eq_getElem hpos)
  · exact ⟨⟨q.alloc, l', q.cap, q.dropped ++ [q.elems[0]]⟩,
      by simp only [pop, if_neg (show ¬ q.elems.length = 0 by omega), e1], p1, rfl⟩

/-- C10, `make_heap` on arbitrary contents: the elements stay the same and `top` becomes a
maximum, also after any further pushes and pops (the result is ordered). -/
theorem pqueue_make_heap {less : α → α → Bool} (hw : StrictWeak less) (q : PQ α) :
    ∃ q', makeHeap less q = some q' ∧ q'.elems.Perm q.elems ∧ q'.dropped = q.dropped ∧
      (∀ x, top q' = some x → IsMax less x q.elems) := by
  obtain ⟨l', e1, p1, h1⟩ := makeHeap_spec hw q
  refine ⟨_, e1, p1, rfl, fun x hx => ⟨?_, fun y hy => ?_⟩⟩
  · exact p1.subset (List.mem_of_getElem? hx)
  · exact heap_top_max hw h1 hx y (p1.symm.subset hy)

theorem drain_aux {less : α → α → Bool} (hw : StrictWeak less) :
    ∀ (n : Nat) (q : PQ α), q.elems.length = n → HeapFrom less q.elems 1 →
      ∃ xs, drain less n q = some xs ∧ xs.Perm q.elems ∧ xs.Pairwise (fun a b => less a b = false) := by
  intro n
  induction n with
  | zero =>
    intro q hn hh
    refine ⟨[], by simp [drain, hn], ?_, by simp⟩
    rw [List.length_eq_zero_iff.1 hn]
  | succ n ih =>
    intro q hn hh
    obtain ⟨l', e1, p1, h1⟩ := eraseAt_spec hw q 0 (by omega)
    have hl := p1.length_eq
    simp at hl
    have hx : q.elems[0]? = some q.elems[0] := List.getElem?_eq_getElem (by omega)
    have hmax := heap_top_max hw hh hx
    generalize q.elems[0] = x at *
    obtain ⟨xs, e2, p2, s2⟩ := ih ⟨q.alloc, l', q.cap, q.dropped ++ [x]⟩ (by dsimp only; omega) (h1 hh (.inl rfl))
    refine ⟨x :: xs, ?_, (p2.cons x).trans p1, List.Pairwise.cons (fun y hy => ?_) s2⟩
    · simp only [drain, if_neg (show ¬ q.elems.length = 0 by omega), top, hx, pop, e1,
        Option.bind_eq_bind, Option.bind_some, e2]
    · exact hmax y (p1.subset (List.mem_cons_of_mem _ (p2.subset hy)))

/-- C11. Taking `top` and `pop` until the queue is empty (it takes exactly `size` rounds) yields
the contents in non-increasing order. -/
theorem pqueue_drain_sorted {less : α → α → Bool} (hw : StrictWeak less) {q : PQ α} {ent outs : List α}
    (hr : Reach less q ent outs true) :
    ∃ xs, drain less q.elems.length q = some xs ∧ xs.Perm q.elems ∧
      xs.Pairwise (fun a b => less a b = false) :=
  drain_aux hw _ q rfl ((reach_inv hw hr).2.2 rfl)

/-- C12 (partial). `erase_at(i)` destroys exactly the element at position `i` and keeps all
others; the queue stays ordered (its top a maximum, also under further calls) if `i` is the
first or the last position, or if the last element does not exceed the parent of position `i`.
Missing: the remaining positions, for which the claim is false
(`pqueue_erase_at_breaks_order`). -/
theorem pqueue_erase_at_partial {less : α → α → Bool} (hw : StrictWeak less) {q : PQ α}
    {ent outs : List α} {h : Bool} (hr : Reach less q ent outs h) {i : Nat} (hi : i < q.elems.length) :
    ∃ q', eraseAt less q i = some q' ∧ (q.elems[i] :: q'.elems).Perm q.elems ∧
      q'.dropped = q.dropped ++ [q.elems[i]] ∧
      (h = true → (i = 0 ∨ i + 1 = q.elems.length ∨
          ∀ p y, q.elems[(i + 1) / 2 - 1]? = some p → q.elems.getLast? = some y → less p y = false) →
        (∀ x, top q' = some x → IsMax less x q'.elems) ∧
        ∃ xs, drain less q'.elems.length q' = some xs ∧ xs.Perm q'.elems ∧
          xs.Pairwise (fun a b => less a b = false)) := by
  obtain ⟨l', e1, p1, h1⟩ := eraseAt_spec hw q i hi
  refine ⟨_, e1, p1, rfl, fun hb hc => ?_⟩
  have hh := h1 ((reach_inv hw hr).2.2 hb) (by rw [List.getLast?_eq_getElem?] at hc; exact hc)
  exact ⟨fun x hx => ⟨List.mem_of_getElem? hx, heap_top_max hw hh hx⟩, drain_aux hw _ _ rfl hh⟩

/-- The comparison used in the examples. -/
def natLess (a b : Nat) : Bool := decide (a < b)

theorem natLess_sw : StrictWeak natLess := strictWeak_nat

/-- Pushing 10, 4, 9, 3, 2, 8, 7 gives a heap with the array 10 4 9 3 2 8 7. -/
theorem reach_ex : Reach natLess ⟨true, [10, 4, 9, 3, 2, 8, 7], 10, []⟩ [10, 4, 9, 3, 2, 8, 7] [] true := by
  have h1 : Reach natLess ⟨true, [10], 4, []⟩ [10] [] true :=
    Reach.call (o := .push true 10) (r := none) Reach.init (by decide)
      rfl
  have h2 : Reach natLess ⟨true, [10, 4], 4, []⟩ [10, 4] [] true :=
    Reach.call (o := .push true 4) (r := none) h1 (by decide) rfl
  have h3 : Reach natLess ⟨true, [10, 4, 9], 4, []⟩ [10, 4, 9] [] true :=
    Reach.call (o := .push true 9) (r := none) h2 (by decide) rfl
  have h4 : Reach natLess ⟨true, [10, 4, 9, 3], 4, []⟩ [10, 4, 9, 3] [] true :=
    Reach.call (o := .push true 3) (r := none) h3 (by decide) rfl
  have h5 : Reach natLess ⟨true, [10, 4, 9, 3, 2], 10, []⟩ [10, 4, 9, 3, 2] [] true :=
    Reach.call (o := .push true 2) (r := none) h4 (by decide)
      rfl
  have h6 : Reach natLess ⟨true, [10, 4, 9, 3, 2, 8], 10, []⟩ [10, 4, 9, 3, 2, 8] [] true :=
    Reach.call (o := .push true 8) (r := none) h5 (by decide) rfl
  exact Reach.call (o := .push true 7) (r := none) h6 (by decide) rfl

/-- A value sifted up to the top, and one pop. -/
theorem reach_ex2 : Reach natLess ⟨true, [10, 4, 9, 3, 2, 8, 7], 10, [11]⟩
    [10, 4, 9, 3, 2, 8, 7, 11] [] true := by
  have h1 : Reach natLess ⟨true, [11, 10, 9, 4, 2, 8, 7, 3], 10, []⟩ [10, 4, 9, 3, 2, 8, 7, 11] [] true :=
    Reach.call (o := .push true 11) (r := none) reach_ex (by decide)
      rfl
  exact Reach.call (o := .pop) (r := none) h1 (by decide)
    rfl

example : ∃ x, top (⟨true, [10, 4, 9, 3, 2, 8, 7], 10, [11]⟩ : PQ Nat) = some x ∧
    IsMax natLess x [10, 4, 9, 3, 2, 8, 7] :=
  let ⟨x, h1, h2, _⟩ := (pqueue_top_is_max natLess_sw reach_ex2).2.2 rfl (by simp)
  ⟨x, h1, h2⟩

example : ∃ xs, drain natLess 7 ⟨true, [10, 4, 9, 3, 2, 8, 7], 10, [11]⟩ = some xs ∧
    xs.Perm [10, 4, 9, 3, 2, 8, 7] ∧ xs.Pairwise (fun a b => natLess a b = false) :=
  pqueue_drain_sorted natLess_sw reach_ex2

/-- The condition of `pqueue_erase_at_partial` met at an inner position (position 5, parent 9,
last element 7). -/
example : ∃ q', eraseAt natLess ⟨true, [10, 4, 9, 3, 2, 8, 7], 10, [11]⟩ 5 = some q' ∧
    ∀ x, top q' = some x → IsMax natLess x q'.elems :=
  let ⟨q', h1, _, _, h4⟩ := pqueue_erase_at_partial natLess_sw reach_ex2 (i := 5) (by decide)
  ⟨q', h1, (h4 rfl (.inr (.inr (by simp [natLess])))).1⟩

/-- C12 fails for other positions: erasing position 3 of 10 4 9 3 2 8 7 puts 7 below 4; after
a push of 1 and three pops, `top` is 4 while 7 is still stored. -/
theorem pqueue_erase_at_breaks_order : ∃ (q0 q1 q2 : PQ Nat) (ent outs : List Nat),
    Reach natLess q0 ent outs true ∧ eraseAt natLess q0 3 = some q1 ∧
    ((push natLess true q1 1).bind fun q => (pop natLess q).bind fun q => (pop natLess q).bind fun q =>
      pop natLess q) = some q2 ∧
    top q2 = some 4 ∧ 7 ∈ q2.elems := by
  refine ⟨_, ⟨true, [10, 4, 9, 7, 2, 8], 10, [3]⟩, ⟨true, [4, 7, 1, 2], 10, [3, 10, 9, 8]⟩, _, _, reach_ex,
    rfl, rfl, rfl, by decide⟩

/-- `pull` (documented as handing out the top) always returns an element that it has just
destroyed. -/
theorem pqueue_pull_returns_destroyed {less : α → α → Bool} (hw : StrictWeak less) {q : PQ α}
    (hne : q.elems ≠ []) :
    ∃ q' x, pull less q = some (q', x) ∧ top q = some x ∧ q'.dropped = q.dropped ++ [x] := by
  have hpos : 0 < q.elems.length := List.length_pos_iff.2 hne
  obtain ⟨l', e1, _⟩ := eraseAt_spec hw q 0 hpos
  have hx : q.elems[0]? = some q.elems[0] := List.getElem?_eq_getElem hpos
  exact ⟨⟨q.alloc, l', q.cap, q.dropped ++ [q.elems[0]]⟩, _,
    by simp only [pull, hx, e1, Option.bind_eq_bind, Option.bind_some], hx, rfl⟩

example : ∃ q' x, pull natLess ⟨true, [10, 4, 9, 3, 2, 8, 7], 10, [11]⟩ = some (q', x) ∧ x ∈ q'.dropped :=
  let ⟨q', x, h1, _, h3⟩ := pqueue_pull_returns_destroyed natLess_sw (by simp)
  ⟨q', x, h1, by simp [h3]⟩

/-- `push` on a full queue when the allocation fails stores outside the block: the result of
the reservation is not examined. -/
theorem pqueue_push_failure_undefined {less : α → α → Bool} {q : PQ α} (hfull : q.elems.length = q.cap)
    (x : α) : push less false q x = none := by
  have : grow false q = some (q, false) := by
    unfold grow reserve
    rw [if_pos hfull, if_neg (by omega), if_neg (by omega)]
    rfl
  simp only [push, this, Option.bind_eq_bind, Option.bind_some]
  rw [if_neg (by omega)]

example : push natLess false ⟨true, [10, 4, 9, 3], 4, []⟩ 5 = none :=
  pqueue_push_failure_undefined rfl 5

/-- `shrink_to_fit` on an emptied queue asks for a block of no bytes and would keep the old
pointer if that frees it. -/
theorem pqueue_shrink_empty_undefined (ok : Bool) (c : Nat) (d : List α) :
    shrinkToFit ok (⟨true, [], c, d⟩ : PQ α) = none := by
  simp [shrinkToFit, reserve]

/-- A clone whose allocation succeeds holds the same elements, hence the same order; one whose
allocation fails is undefined unless the queue is empty. -/
theorem pqueue_clone {q : PQ α} :
    (∃ q', clone true q = some q' ∧ q'.elems = q.elems ∧ q'.dropped = [] ∧ q'.elems.length ≤ q'.cap) ∧
    (q.elems ≠ [] → clone false q = none) := by
  constructor
  · by_cases h : q.elems.length = 0
    · exact ⟨⟨false, q.elems, 0, []⟩, by simp [clone, reserve, init, List.length_eq_zero_iff.1 h], rfl, rfl, by simp [h]⟩
    · exact ⟨⟨true, q.elems, q.elems.length, []⟩, by have := List.length_eq_zero_iff.not.1 h; simp [clone, reserve, init, this], rfl, rfl, Nat.le_refl _⟩
  · intro h
    have h' : ¬ q.elems.length = 0 := by simpa using h
    simp [clone, reserve, init, h]

end Verif.PQueue
