import Verif.Vec.Lemmas
/- Properties of `vec` (C01, C02, C03, C72). -/
namespace Verif.Vec
open Spec
variable {α : Type}

/-- C01. After any history of valid calls (with any pattern of allocation failures) the vec is
indistinguishable from the mathematical list obtained by the same calls: same length, same
element at each index (and the index check fires exactly outside of the list), and every
further valid call is free of undefined behaviour, hands out the specified element and
destroys exactly the specified elements in the specified order. -/
theorem vec_sequence {v : Vec α} {l ent outs : List α} (h : Reach v l ent outs) :
    v.size = l.length ∧ (∀ i, at' v i = l[i]?) ∧
    ∀ o, valid l o → ∃ v' r, step v o = some (v', r) ∧ r.out = out l o ∧
      v'.dropped = v.dropped ++ destroyed l r.ok o := by
  have hr := reach_rep h
  refine ⟨hr.size, at_spec hr, fun o hv => ?_⟩
  obtain ⟨v', r, e1, _, e3, e4, _⟩ := step_spec hr o hv
  exact ⟨v', r, e1, e3, e4⟩

/-- The vec after a history with growth, insertion in the middle, erasure, replacement and a
failing allocation; used below to show that the hypotheses are satisfiable. -/
def exVec : Vec Nat := ⟨some [some 7, some 8, some 3, none], 3, 4, [1]⟩

theorem reach_exVec : Reach exVec [7, 8, 3] [1, 7, 2, 3, 8] [2] := by
  have h1 := Reach.call (o := .push true 1) Reach.init (by decide) rfl
  have h2 := Reach.call (o := .insertN false 0 [5, 6, 5, 6]) h1 (by decide) rfl
  have h3 := Reach.call (o := .insertN true 1 [7, 2, 3]) h2 (by decide) rfl
  have h4 := Reach.call (o := .eraseN 0 1) h3 (by decide) rfl
  exact Reach.call (o := .replace 1 8) h4 (by decide) rfl

example : exVec.size = 3 ∧ at' exVec 1 = some 8 ∧ at' exVec 3 = none :=
  ⟨(vec_sequence reach_exVec).1, (vec_sequence reach_exVec).2.1 1, (vec_sequence reach_exVec).2.1 3⟩

/-- C01, linear search: the first index whose element compares equal. -/
theorem vec_find {v : Vec α} {l ent outs : List α} (h : Reach v l ent outs)
    (eq : α → α → Bool) (raw : α) : find v eq raw = some (l.findIdx? (eq raw)) := by
  have hr := reach_rep h
  unfold find
  cases hd : v.data with
  | none => simp [(hr.null hd).2]
  | some b =>
    obtain ⟨_, h2, _⟩ := hr.blk b hd
    simp only [Option.isSome_some, if_true, hr.size]
    rw [findFrom_spec eq raw hd h2 l.length 0 (by omega)]
    simp

example : find exVec (· == ·) 3 = some (some 2) ∧ find exVec (· == ·) 9 = some none :=
  ⟨vec_find reach_exVec _ 3, vec_find reach_exVec _ 9⟩

theorem rep_eq {v w : Vec α} {l m : List α} (hr : Rep v l) (hr' : Rep w m) (eq : α → α → Bool) :
    ∃ r, Vec.eq v w eq = some r ∧
      (r = true ↔ l.length = m.length ∧ ∀ (j : Nat) x y, l[j]? = some x → m[j]? = some y → eq x y = true) := by
  unfold Vec.eq
  rw [hr.size, hr'.size]
  by_cases hlm : l.length = m.length
  · rw [if_neg (by simpa using hlm)]
    by_cases h0 : l = []
    · subst h0
      exact ⟨true, rfl, by simp; simpa using hlm⟩
    · have h0' : m ≠ [] := by
        intro hm; subst hm; simp at hlm; exact h0 hlm
      obtain ⟨b, hd, _, h2, _⟩ := hr.blk_of_ne h0
      obtain ⟨c, hd', _, h2', _⟩ := hr'.blk_of_ne h0'
      obtain ⟨r, e1, e2⟩ := eqFrom_spec eq hd h2 hd' h2' hlm l.length 0 (by omega)
      refine ⟨r, e1, e2.trans ⟨fun hh => ⟨hlm, fun j x y hx hy => ?_⟩, fun hh j _ hj => ?_⟩⟩
      · obtain ⟨hj, rfl⟩ := List.getElem?_eq_some_iff.1 hx
        obtain ⟨hj', rfl⟩ := List.getElem?_eq_some_iff.1 hy
        exact hh j (Nat.zero_le _) hj
      · exact hh.2 j _ _ (List.getElem?_eq_getElem hj) (List.getElem?_eq_getElem (by omega))
  · rw [if_pos (by simpa using hlm)]
    exact ⟨false, rfl, by simp [hlm]⟩

/-- C01, equality test: true exactly for lists of the same length with pairwise equal
elements. -/
theorem vec_eq {v w : Vec α} {l m e e' o o' : List α} (h : Reach v l e o) (h' : Reach w m e' o')
    (eq : α → α → Bool) :
    ∃ r, Vec.eq v w eq = some r ∧
      (r = true ↔ l.length = m.length ∧ ∀ (j : Nat) x y, l[j]? = some x → m[j]? = some y → eq x y = true) :=
  rep_eq (reach_rep h) (reach_rep h') eq

example : ∃ r, Vec.eq exVec exVec (· == ·) = some r ∧ r = true := by
  obtain ⟨r, e1, e2⟩ := vec_eq reach_exVec reach_exVec (fun x y => x == y)
  refine ⟨r, e1, e2.2 ⟨rfl, ?_⟩⟩
  intro j x y hx hy
  rw [hx] at hy
  simpa using hy

/-- C01, the iterator returned by erasing: it refers to the element that followed the erased
ones, NULL if there is none. -/
theorem vec_erase_returns_next {v : Vec α} {l ent outs : List α} (h : Reach v l ent outs)
    (idx n : Nat) (hn : idx + n ≤ l.length) (hl : l ≠ []) :
    ∃ v' r, eraseN v idx n = some (v', r) ∧
      match r with
      | none => l[idx + n]? = none
      | some i => at' v' i = l[idx + n]? ∧ (l[idx + n]?).isSome := by
  obtain ⟨v', r, e1, e2, _, e4⟩ := eraseN_spec (reach_rep h) idx n hn hl
  refine ⟨v', r, e1, ?_⟩
  subst e4
  by_cases he : idx + n = l.length
  · simp [he]
  · simp only [he, if_false, at_spec e2]
    rw [List.getElem?_append_right (by simp; omega)]
    have : idx - (l.take idx).length = 0 := by simp; omega
    rw [this]
    simp
    omega

example : ∃ v' r, eraseN exVec 0 1 = some (v', r) ∧ r = some 0 ∧ at' v' 0 = some 8 :=
  ⟨_, _, rfl, rfl, rfl⟩

/-- C01, a clone is an independent vec with the same sequence (for a non-empty source and a
successful allocation); if the allocation fails, the clone is an empty vec. -/
theorem vec_clone {v : Vec α} {l ent outs : List α} (h : Reach v l ent outs) (ok : Bool) :
    ∃ w r, clone ok v = some (w, r) ∧
      (ok = true → w.size = v.size ∧ ∀ i, at' w i = at' v i) ∧
      (ok = false → w.size = 0) := by
  have hr := reach_rep h
  have hread : readUp (v.data.getD []) 0 v.size = some l := by
    rw [hr.size]
    cases hd : v.data with
    | none => simp [(hr.null hd).2, readUp]
    | some b => simpa using readUp_spec (hr.blk b hd).2.1 l.length 0 (by omega)
  obtain ⟨w, r, e1, e2, e3, e4⟩ := insertN_spec (rep_init (α := α)) ok 0 l (Nat.le_refl 0)
  refine ⟨w, r, by simp [clone, hread, e1], ?_, ?_⟩
  · intro hok
    cases r
    · have h1 := (e4 rfl).1
      have := (e4 rfl).2 hok
      subst this
      subst h1
      exact ⟨by rw [hr.size]; rfl, fun i => by rw [at_spec rep_init, at_spec hr]⟩
    · have := e3 rfl
      simp at this
      exact ⟨by rw [this.size, hr.size], fun i => by rw [at_spec this, at_spec hr]⟩
  · intro hok
    cases r
    · rw [(e4 rfl).1]; rfl
    · subst hok
      have h2 := e3 rfl
      simp at h2
      rcases Nat.eq_zero_or_pos l.length with h0 | h0
      · rw [h2.size, h0]
      · exfalso
        have hi : insertN false (init : Vec α) 0 l = some (init, false) := by
          have : l.length > 0 := h0
          simp [insertN, insertUninit, init, reserve, this]
        rw [hi] at e1
        simp at e1

example : ∃ w, clone true exVec = some (w, true) ∧ w.size = 3 ∧ at' w 1 = some 8 :=
  ⟨_, rfl, rfl, rfl⟩

/-- C02. A call that reports failure leaves the vec exactly as it was (same block, same size
and capacity, nothing destroyed), and failure is reported only if the allocator failed or the
call asked for no elements at all; in particular success is always reported when the
allocator succeeds and something was requested. -/
theorem vec_alloc_failure {v v' : Vec α} {l ent outs : List α} {o : Op α} {r : Reply α}
    (h : Reach v l ent outs) (hv : valid l o) (hs : step v o = some (v', r)) (hr : r.ok = false) :
    v' = v ∧ (allocOk o = false ∨ vacuous o) := by
  obtain ⟨w, q, e1, _, _, _, e5⟩ := step_spec (reach_rep h) o hv
  rw [hs] at e1
  simp only [Option.some.injEq, Prod.mk.injEq] at e1
  obtain ⟨rfl, rfl⟩ := e1
  obtain ⟨a, b⟩ := e5 hr
  refine ⟨a, ?_⟩
  cases ha : allocOk o
  · exact .inl rfl
  · exact .inr (b ha)

example : ∃ v' r, step exVec (.insertN false 1 [1, 2, 3, 4]) = some (v', r) ∧ r.ok = false ∧
    valid [7, 8, 3] (.insertN false 1 [1, 2, 3, 4]) := ⟨_, _, rfl, rfl, by decide⟩

/-- C02, capacity: the size never exceeds the capacity, a successful `reserve(n)`
guarantees capacity `n`, and `shrink_to_fit` of a non-empty vec gives back the excess. -/
theorem vec_capacity {v : Vec α} {l ent outs : List α} (h : Reach v l ent outs) :
    v.size ≤ v.cap ∧ (∀ ok n, (reserve ok v n).2 = true → n ≤ (reserve ok v n).1.cap) ∧
    (l ≠ [] → (shrinkToFit true v).cap = l.length) := by
  have hr := reach_rep h
  refine ⟨by rw [hr.size]; exact hr.le_cap,
    fun ok n hh => ((reserve_spec hr ok n).2.2.2.1 hh).1, fun hl => ?_⟩
  simp [shrinkToFit, reserve, hr.size, hl]

example : exVec.cap = 4 ∧ (shrinkToFit true exVec).cap = 3 :=
  ⟨rfl, (vec_capacity reach_exVec).2.2 (by decide)⟩

/-- C03 (partial: the vec is not empty, or was never allocated). Iteration with `c_each`
visits every element exactly once, in index order, and ends. The full statement — also for
an allocated but empty vec — is false: see `vec_iterate_empty_undefined`. -/
theorem vec_iterate_partial {v : Vec α} {l ent outs : List α} (h : Reach v l ent outs)
    (hne : l ≠ [] ∨ v.data = none) (fuel : Nat) (hf : l.length ≤ fuel) :
    each v fuel = some l := by
  have hr := reach_rep h
  unfold each begin
  cases hd : v.data with
  | none =>
    have := (hr.null hd).2
    subst this
    cases fuel <;> simp [eachFrom]
  | some b =>
    have hl : l ≠ [] := by
      rcases hne with h | h
      · exact h
      · simp [hd] at h
    obtain ⟨_, h2, _⟩ := hr.blk b hd
    simp only [Option.isSome_some, if_true, hr.size]
    have := each_aux hd h2 l.length 0 fuel (by omega) (List.length_pos_iff.2 hl) hf
    simpa using this

example : each exVec 3 = some [7, 8, 3] :=
  vec_iterate_partial reach_exVec (.inl (by decide)) 3 (by decide)

/-- C03 (partial, same restriction), reverse iteration with `c_each_reverse`. -/
theorem vec_iterate_reverse_partial {v : Vec α} {l ent outs : List α} (h : Reach v l ent outs)
    (hne : l ≠ [] ∨ v.data = none) (fuel : Nat) (hf : l.length ≤ fuel) :
    eachReverse v fuel = some l.reverse := by
  have hr := reach_rep h
  unfold eachReverse
  cases hd : v.data with
  | none =>
    have := (hr.null hd).2
    subst this
    cases fuel <;> simp [revFrom]
  | some b =>
    have hl : l ≠ [] := by
      rcases hne with h | h
      · exact h
      · simp [hd] at h
    obtain ⟨_, h2, _⟩ := hr.blk b hd
    have hpos := List.length_pos_iff.2 hl
    have h5 : (v.size : Int) - 1 = ((l.length - 1 : Nat) : Int) := by rw [hr.size]; omega
    simp only [Option.isSome_some, if_true, h5]
    rw [rev_aux hd h2 _ fuel (by omega) (by omega), List.take_of_length_le (by omega)]

example : eachReverse exVec 3 = some [3, 8, 7] :=
  vec_iterate_reverse_partial reach_exVec (.inl (by decide)) 3 (by decide)

/-- C03, refutation of the unrestricted claim: after one push and one pop the vec is a valid,
empty vec, but iterating over it reads a dead slot whatever the bound on the number of
rounds. -/
theorem vec_iterate_empty_undefined :
    ∃ v : Vec Nat, Reach v [] [5] [] ∧ ∀ fuel, each v fuel = none ∧ eachReverse v fuel = none := by
  refine ⟨⟨some [none, none, none, none], 0, 4, [5]⟩, ?_, ?_⟩
  · exact .call (o := .pop) (.call (o := .push true 5) .init trivial rfl) (by simp [valid, after]) rfl
  · intro fuel
    cases fuel <;> exact ⟨rfl, rfl⟩

/-- C72. Conservation of elements: after any history, the elements that entered are exactly
(as a multiset) those still stored, those handed to the caller and those destroyed; and
`drop` then destroys the stored ones, so that every element not handed out is destroyed
exactly once. -/
theorem vec_ownership {v : Vec α} {l ent outs : List α} (h : Reach v l ent outs) :
    (l ++ outs ++ v.dropped).Perm ent ∧
    ∃ log, drop v = some log ∧ (outs ++ log).Perm ent := by
  have h1 : (l ++ outs ++ v.dropped).Perm ent := by
    induction h with
    | init => simp [init]
    | @call v v' l ent outs o r hr hv hs ih =>
      obtain ⟨w, q, e1, _, e3, e4, _⟩ := step_spec (reach_rep hr) o hv
      rw [hs] at e1
      simp only [Option.some.injEq, Prod.mk.injEq] at e1
      obtain ⟨rfl, rfl⟩ := e1
      have hb := balance l r.ok o hv
      rw [e4]
      have p1 : (after l r.ok o ++ (outs ++ (out l o).toList) ++ (v.dropped ++ destroyed l r.ok o)).Perm
          ((after l r.ok o ++ (out l o).toList ++ destroyed l r.ok o) ++ (outs ++ v.dropped)) := by
        classical
        rw [List.perm_iff_count]
        intro a
        simp only [List.count_append]; omega
      refine p1.trans ((hb.append_right _).trans ?_)
      have p2 : ((l ++ entered l r.ok o) ++ (outs ++ v.dropped)).Perm
          ((l ++ outs ++ v.dropped) ++ entered l r.ok o) := by
        classical
        rw [List.perm_iff_count]
        intro a
        simp only [List.count_append]; omega
      exact p2.trans (ih.append_right _)
  refine ⟨h1, ?_⟩
  have hr := reach_rep h
  have key : ∀ log : List α, log.Perm (v.dropped ++ l) → (outs ++ log).Perm ent := by
    intro log hlog
    refine (hlog.append_left _).trans (List.Perm.trans ?_ h1)
    classical
    rw [List.perm_iff_count]
    intro a
    simp only [List.count_append]; omega
  unfold drop
  by_cases hc : v.cap = 0
  · have : l = [] := List.length_eq_zero_iff.1 (by have := hr.le_cap; omega)
    subst this
    exact ⟨v.dropped, by simp [hc], key _ (by simp)⟩
  · obtain ⟨w, e1, _, e3⟩ := clear_spec hr
    refine ⟨w.dropped, by simp [hc, e1], key _ ?_⟩
    rw [e3]
    exact List.Perm.append_left _ (List.reverse_perm l)

example : drop exVec = some [1, 3, 8, 7] ∧ ([2] ++ [1, 3, 8, 7]).Perm [1, 7, 2, 3, 8] := by
  obtain ⟨log, e1, e2⟩ := (vec_ownership reach_exVec).2
  have : drop exVec = some [1, 3, 8, 7] := rfl
  rw [this] at e1
  simp only [Option.some.injEq] at e1
  exact ⟨this, e1 ▸ e2⟩

end Verif.Vec
