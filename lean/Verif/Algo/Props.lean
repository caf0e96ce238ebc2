import Verif.Algo.Walk
import Verif.Algo.Pipe
import Verif.Stack.Lemmas
/- C63 (ranges), C64 (filter pipelines), C65 (erase-remove, erase-if), C103 (searching), C104 (appending),
C105 (reversing), C106 (bounded iteration and zipping). -/
set_option linter.unusedVariables false
namespace Verif.Algo
open Spec
open scoped List
variable {ι α : Type}

/-! ### C63 -/

/-- C63 (partial: the step past the last number must not overflow; see `c_range_overflow`).
`c_range(i, start, stop, step)` iterates over exactly `start`, `start + step`, … before `stop`. -/
theorem c_range_partial {w : Nat} {start stop step : Int} (hs : step ≠ 0) (hf : Fits w start stop step) (f : Nat)
    (hn : (stop - start).natAbs < f) : ∃ xs, range5 w f start stop step = some xs ∧ IsRange start stop step xs := by
  obtain ⟨xs, h1, h2⟩ := range5Loop_spec hs f start hf hn
  have := fits_fin hs hf
  unfold finOf at this
  exact ⟨xs, by simp only [range5, this, Option.bind_eq_bind, Option.bind_some]; exact h1, h2⟩

/-- C63 (partial as before): `c_range(i, start, stop)`. -/
theorem c_range_unit_partial {w : Nat} {start stop : Int} (hf : Fits w start stop 1) (f : Nat)
    (hn : (stop - start).natAbs < f) : ∃ xs, range4 w stop f start = some xs ∧ IsRange start stop 1 xs :=
  range4_spec f start hf hn

/-- C63 (partial: also, the range must not be empty; see `crange_empty_wrong`). Iterating over a
`crange` visits exactly `start`, `start + step`, … before `stop`. -/
theorem crange_partial {w : Nat} {start stop step : Int} (hs : step ≠ 0) (hf : Fits w start stop step)
    (hne : (0 < step ∧ start < stop) ∨ (step < 0 ∧ stop < start)) :
    ∃ r xs, rangeMake w start stop step = some r ∧ IsRange start stop step xs ∧
      ∀ f, xs.length < f → eachLoop (rangeWalker w) f (rangeBegin r) = some xs := by
  obtain ⟨xs, h1, h2⟩ := rangeEach_spec hs _ start hf (Nat.le_refl _) (inside0.2 hne)
  have := fits_fin hs hf
  refine ⟨⟨start, finOf stop step, step⟩, xs, ?_, h2, each_yields h1⟩
  unfold finOf at this ⊢
  simp only [rangeMake, this, Option.bind_eq_bind, Option.bind_some]

/-- C63: the number of the range `n` steps on, if it is still before `stop`, otherwise the end. -/
theorem crange_advance {w : Nat} {v stop step : Int} (hs : step ≠ 0) (n : Nat)
    (h1 : -((2 : Int) ^ (w - 1)) ≤ step * n) (h2 : step * n < 2 ^ (w - 1))
    (h3 : -((2 : Int) ^ (w - 1)) ≤ v + step * n) (h4 : v + step * n < 2 ^ (w - 1)) :
    rangeAdvance w ⟨some v, finOf stop step, step⟩ n =
      some ⟨if Inside v stop step n then some (v + n * step) else none, finOf stop step, step⟩ := by
  have e : Inside v stop step n ↔ Inside (v + step * n) stop step 0 := by
    simp [Inside, Int.mul_comm]
  simp only [rangeAdvance, sig_ok h1 h2, sig_ok h3 h4, Option.bind_eq_bind, Option.bind_some]
  by_cases h : Inside (v + step * n) stop step 0
  · rw [if_neg (fun h' => (stop_iff hs).1 h' h), if_pos (e.2 h), Int.mul_comm]
  · rw [if_pos ((stop_iff hs).2 h), if_neg (fun h' => h (e.1 h'))]

/-- C63, refutation for `crange`: an empty range is not empty. Whatever the bounds, the first round of
the loop always sees `start`. -/
theorem crange_empty_wrong {w : Nat} {start stop step : Int} {r : Range} (h : rangeMake w start stop step = some r) {f : Nat} {xs : List Int}
    (hx : eachLoop (rangeWalker w) f (rangeBegin r) = some xs) : xs.head? = some start := by
  simp only [rangeMake, Option.bind_eq_bind, Option.bind_eq_some_iff, Option.some.injEq] at h
  obtain ⟨e, _, rfl⟩ := h
  cases f with
  | zero => cases hx
  | succ f =>
    simp only [eachLoop, rangeWalker, rangeBegin, Option.map_some, Option.bind_eq_bind, Option.bind_some, Option.bind_eq_some_iff, Option.some.injEq] at hx
    obtain ⟨_, _, _, _, rfl⟩ := hx
    rfl

/-- `crange_make(5, 5)` gives 5. -/
example : (rangeMake 64 5 5 1).bind (fun r => eachLoop (rangeWalker 64) 9 (rangeBegin r)) = some [5] := by decide

/-- C63, refutation without `Fits`: the loop over the one number before `INT64_MAX` with step 2 overflows. -/
theorem c_range_overflow : range5 64 9 (2 ^ 63 - 2) (2 ^ 63 - 1) 2 = none := by decide

example : Fits 64 10 (-5) (-4) ∧ range5 64 99 10 (-5) (-4) = some [10, 6, 2, -2] := by
  refine ⟨⟨by decide, by decide, by decide, by decide⟩, by decide⟩
example : Fits 32 3 8 1 ∧ range4 32 8 9 3 = some [3, 4, 5, 6, 7] := by
  refine ⟨⟨by decide, by decide, by decide, by decide⟩, by decide⟩
example : range5 64 9 7 7 1 = some [] := by decide
example : (rangeMake 32 1 10 4).bind (fun r => eachLoop (rangeWalker 32) 9 (rangeBegin r)) = some [1, 5, 9] := by decide
example : rangeAdvance 32 ⟨some 1, finOf 10 4, 4⟩ 2 = some ⟨some 9, finOf 10 4, 4⟩ := by decide

/-! ### what the iterators go over -/

/-- Iteration over a vec visits its elements in order (partial as `Vec.vec_iterate_partial`). -/
theorem iterate_vec_partial {v : Vec.Vec α} {l ent outs : List α} (h : Vec.Spec.Reach v l ent outs) (hne : l ≠ [] ∨ v.data = none) :
    Yields (vecWalker v) (Vec.begin v) l := vec_yields_begin (Vec.reach_rep h) hne

/-- Iteration over a deque or queue, in order. -/
theorem iterate_deque {d : Deque.Deque α} {l : List α} (h : Deque.Spec.Reach d l) : Yields (dequeWalker d) (Deque.begin d) l :=
  deque_yields_begin (Deque.reach_rep h)

/-- Iteration over a deque or queue, backwards. -/
theorem iterate_deque_reverse {d : Deque.Deque α} {l : List α} (h : Deque.Spec.Reach d l) :
    Yields (dequeRWalker d) (Deque.rbegin d) l.reverse := deque_yields_rbegin (Deque.reach_rep h)

/-- Iteration over a hash map, in some order. -/
theorem iterate_hmap {κ ν : Type} {H : Hmap.Hasher κ} (LH : Hmap.Spec.Lawful H) {m : Hmap.Map κ ν} {M : Hmap.Spec.FMap κ ν} (h : Hmap.Spec.Reach H m M) :
    ∃ it es, Hmap.begin' m = some it ∧ es ~ M ∧ Yields (hmapWalker m) it es := by
  obtain ⟨it, es, h1, h2, h3⟩ := hmap_yields (Hmap.reach_rep LH h)
  obtain ⟨es', h4, h5⟩ := Hmap.each_spec (Hmap.reach_rep LH h)
  rw [h2] at h4; cases h4
  exact ⟨it, es, h1, h5, h3⟩

/-- Iteration over a sorted map, in key order. -/
theorem iterate_smap {κ ν : Type} [DecidableEq κ] {cmp : κ → κ → Int} (hc : Smap.Lawful cmp) {m : Smap.Map κ ν} {M : Smap.Spec.FMap κ ν}
    (h : Smap.Spec.Reach cmp m M) : ∃ it, Smap.begin' m = some it ∧ Yields (smapWalker m) it M := by
  obtain ⟨it, h1, h2⟩ := Smap.begin_seat (Smap.reach_holds hc h)
  exact ⟨it, h1, smap_yields _ _ _ h2⟩

/-- Iteration over a list, in order. -/
theorem iterate_list {F : Clist.Fns α} (hw : StrictWeak F.less) {m : Clist.Mem α} (h : Clist.Spec.Reach F m) (s : Nat) :
    ∃ it, Clist.begin s (m.lst s) = some it ∧ Yields (listWalker m) it (Clist.Spec.contents m s) := by
  obtain ⟨G, R⟩ := Clist.reach_rep hw h
  obtain ⟨it, h1, h2, h3⟩ := Clist.begin_spec (R.list s) s
  refine ⟨it, h1, ?_⟩
  rw [congrFun R.contents s]
  exact list_yields _ _ _ (by simpa using R.list s) h2 h3

/-! ### C64 -/

/-- C64 (partial: at most 19 stages with a counter and 20 with a flag, and less than 2^32 elements;
see `filter_counters_undefined`). A filter pipeline gives what the stages give one after the other as
functions on whole sequences. -/
theorem filter_pipeline_partial {W : Walker ι α} {ss : List (Stage α)} (hc : counters ss < 20) (hb : flags ss ≤ 20) {it : ι} {xs : List α}
    (h : Yields W it xs) (hx : xs.length < 2 ^ 32) (f : Nat) (hf : xs.length < f) : filter W ss f it = some (pipe ss xs) :=
  filter_spec hc hb h hx f hf

/-- C64 for a vec. -/
theorem filter_vec_partial {v : Vec.Vec α} {l ent outs : List α} (h : Vec.Spec.Reach v l ent outs) (hne : l ≠ [] ∨ v.data = none) {ss : List (Stage α)}
    (hc : counters ss < 20) (hb : flags ss ≤ 20) (hx : l.length < 2 ^ 32) (f : Nat) (hf : l.length < f) :
    filter (vecWalker v) ss f (Vec.begin v) = some (pipe ss l) := filter_spec hc hb (iterate_vec_partial h hne) hx f hf

/-- C64 for a deque or queue, both directions. -/
theorem filter_deque_partial {d : Deque.Deque α} {l : List α} (h : Deque.Spec.Reach d l) {ss : List (Stage α)}
    (hc : counters ss < 20) (hb : flags ss ≤ 20) (hx : l.length < 2 ^ 32) (f : Nat) (hf : l.length < f) :
    filter (dequeWalker d) ss f (Deque.begin d) = some (pipe ss l) ∧ filter (dequeRWalker d) ss f (Deque.rbegin d) = some (pipe ss l.reverse) :=
  ⟨filter_spec hc hb (iterate_deque h) hx f hf, filter_spec hc hb (iterate_deque_reverse h) (by simpa using hx) f (by simpa using hf)⟩

/-- C64 for a list. -/
theorem filter_list_partial {F : Clist.Fns α} (hw : StrictWeak F.less) {m : Clist.Mem α} (h : Clist.Spec.Reach F m) (s : Nat) {ss : List (Stage α)}
    (hc : counters ss < 20) (hb : flags ss ≤ 20) (hx : (Clist.Spec.contents m s).length < 2 ^ 32) (f : Nat) (hf : (Clist.Spec.contents m s).length < f) :
    ∃ it, Clist.begin s (m.lst s) = some it ∧ filter (listWalker m) ss f it = some (pipe ss (Clist.Spec.contents m s)) := by
  obtain ⟨it, h1, h2⟩ := iterate_list hw h s
  exact ⟨it, h1, filter_spec hc hb h2 hx f hf⟩

/-- C64 for a sorted map. -/
theorem filter_smap_partial {κ ν : Type} [DecidableEq κ] {cmp : κ → κ → Int} (hcm : Smap.Lawful cmp) {m : Smap.Map κ ν} {M : Smap.Spec.FMap κ ν}
    (h : Smap.Spec.Reach cmp m M) {ss : List (Stage (κ × ν))} (hc : counters ss < 20) (hb : flags ss ≤ 20) (hx : M.length < 2 ^ 32) (f : Nat) (hf : M.length < f) :
    ∃ it, Smap.begin' m = some it ∧ filter (smapWalker m) ss f it = some (pipe ss M) := by
  obtain ⟨it, h1, h2⟩ := iterate_smap hcm h
  exact ⟨it, h1, filter_spec hc hb h2 hx f hf⟩

/-- C64 for a `crange`. -/
theorem filter_range_partial {w : Nat} {start stop step : Int} (hs : step ≠ 0) (hf : Fits w start stop step)
    (hne : (0 < step ∧ start < stop) ∨ (step < 0 ∧ stop < start)) {ss : List (Stage Int)} (hc : counters ss < 20) (hb : flags ss ≤ 20) :
    ∃ r xs, rangeMake w start stop step = some r ∧ IsRange start stop step xs ∧
      (xs.length < 2 ^ 32 → ∀ f, xs.length < f → filter (rangeWalker w) ss f (rangeBegin r) = some (pipe ss xs)) := by
  obtain ⟨r, xs, h1, h2, h3⟩ := crange_partial hs hf hne
  exact ⟨r, xs, h1, h2, fun hx f hff => filter_spec hc hb (yields_each (h3 _ (Nat.lt_succ_self _))) hx f hff⟩

/-- C64, refutation beyond the limit: with 20 counting stages the pipeline writes outside its array. -/
theorem filter_counters_undefined (W : Walker ι α) (it : ι) (r : Nat) (h : W.ref it = some r) (f : Nat) :
    filter W (List.replicate 20 (.skip 0)) f it = none := by
  have e : ∀ x : α, evalAll (List.replicate 20 (.skip 0)) .init x = none := fun x => rfl
  cases f with
  | zero => rfl
  | succ f =>
    rw [filter, filterLoop]
    simp only [Base.init, h]
    cases hl : W.load it with
    | none => rfl
    | some x =>
      simp only [Option.bind_eq_bind, Option.bind_some]
      have := e x
      rw [Base.init] at this
      rw [this]; rfl

theorem flags_over (x : α) : ∀ (n : Nat) (b : Base), b.sbTop ≤ b.sb.length → b.sb.length < b.sbTop + n →
    evalAll (List.replicate n (.skipWhile fun _ => false)) b x = none := by
  intro n
  induction n with
  | zero => intro b h1 h2; omega
  | succ n ih =>
    intro b h1 h2
    rw [List.replicate_succ, evalAll, evalStage, mark]
    cases hq : b.sb[b.sbTop]? with
    | none => rfl
    | some q =>
      have hlt : b.sbTop < b.sb.length := (List.getElem?_eq_some_iff.1 hq).1
      simp only [Bool.not_false, Bool.or_true, Option.bind_eq_bind, Option.bind_some, if_true]
      exact ih _ (by simp; omega) (by simp; omega)

/-- C64, refutation beyond the limit: with 21 flags too. -/
theorem filter_flags_undefined (W : Walker ι α) (it : ι) (r : Nat) (h : W.ref it = some r) (f : Nat) :
    filter W (List.replicate 21 (.skipWhile fun _ => false)) f it = none := by
  have e : ∀ x : α, evalAll (List.replicate 21 (.skipWhile fun _ => false)) .init x = none := fun x => flags_over x 21 .init (by decide) (by decide)
  cases f with
  | zero => rfl
  | succ f =>
    rw [filter, filterLoop]
    simp only [Base.init, h]
    cases hl : W.load it with
    | none => rfl
    | some x =>
      simp only [Option.bind_eq_bind, Option.bind_some]
      have := e x
      rw [Base.init] at this
      rw [this]; rfl

/-- Skip leading small values, keep the odd ones, skip one, double, take two. -/
def someStages : List (Stage Nat) := [.skipWhile (· < 3), .filt (· % 2 == 1), .skip 1, .map (2 * ·), .take 2]

example : counters someStages = 2 ∧ flags someStages = 1 ∧ pipe someStages [1, 2, 5, 4, 7, 1, 9] = [14, 2] := by decide

/-- The vec 1, 2, 5, 4, 7, 1, 9. -/
def sampleVec : Vec.Vec Nat := ⟨some [some 1, some 2, some 5, some 4, some 7, some 1, some 9, none, none, none, none, none], 7, 12, []⟩

theorem sampleVec_reach : Vec.Spec.Reach sampleVec [1, 2, 5, 4, 7, 1, 9] [1, 2, 5, 4, 7, 1, 9] [] := by
  have h1 := Vec.Spec.Reach.call (o := .push true 1) .init trivial rfl
  have h2 := Vec.Spec.Reach.call (o := .push true 2) h1 trivial rfl
  have h3 := Vec.Spec.Reach.call (o := .push true 5) h2 trivial rfl
  have h4 := Vec.Spec.Reach.call (o := .push true 4) h3 trivial rfl
  have h5 := Vec.Spec.Reach.call (o := .push true 7) h4 trivial rfl
  have h6 := Vec.Spec.Reach.call (o := .push true 1) h5 trivial rfl
  exact Vec.Spec.Reach.call (o := .push true 9) h6 trivial rfl

example : filter (vecWalker sampleVec) someStages 8 (Vec.begin sampleVec) = some [14, 2] := by decide

/-! ### C65 -/

/-- C65 (partial: the vec is not empty, or was never allocated; see `vec_erase_remove_undefined`).
`c_eraseremove_if` destroys exactly the elements satisfying the predicate and keeps the others in order. -/
theorem vec_erase_remove_partial {v : Vec.Vec α} {l ent outs : List α} (h : Vec.Spec.Reach v l ent outs) (hne : l ≠ [] ∨ v.data = none) (p : α → Bool)
    (f : Nat) (hf : l.length < f) :
    ∃ v', eraseRemoveVec p f v = some v' ∧ Vec.Rep v' (l.filter fun x => !p x) ∧ v'.size = (l.filter fun x => !p x).length ∧
      (∀ i, Vec.at' v' i = (l.filter fun x => !p x)[i]?) ∧ v'.dropped = v.dropped ++ l.filter p ∧ v'.cap = v.cap := by
  obtain ⟨v', h1, h2, h3, h4⟩ := eraseRemoveVec_spec (p := p) (Vec.reach_rep h) hne f hf
  exact ⟨v', h1, h2, h2.size, Vec.at_spec h2, h3, h4⟩

/-- C65 for a stack, growing or of fixed capacity (partial as before). -/
theorem stack_erase_remove_partial {fixed : Option Nat} (hx : fixed ≠ some 0) {s : Stack.Stack α} {l : List α} (h : Stack.Spec.Reach fixed s l)
    (hne : l ≠ [] ∨ s.data = none) (p : α → Bool) (f : Nat) (hf : l.length < f) :
    ∃ s', eraseRemoveVec p f s = some s' ∧ Vec.Rep s' (l.filter fun x => !p x) ∧ s'.size = (l.filter fun x => !p x).length ∧
      (∀ i, Stack.at' s' i = (l.filter fun x => !p x)[i]?) ∧ s'.dropped = s.dropped ++ l.filter p ∧ s'.cap = s.cap := by
  obtain ⟨v', h1, h2, h3, h4⟩ := eraseRemoveVec_spec (p := p) (Stack.reach_inv hx h).rep hne f hf
  exact ⟨v', h1, h2, h2.size, Vec.at_spec h2, h3, h4⟩

/-- C65, refutation of the unrestricted claim: on a vec emptied by `pop` the loop reads a dead slot. -/
theorem vec_erase_remove_undefined : ∃ v : Vec.Vec Nat, Vec.Spec.Reach v [] [5] [] ∧ ∀ p f, eraseRemoveVec p f v = none := by
  refine ⟨⟨some [none, none, none, none], 0, 4, [5]⟩, ?_, ?_⟩
  · exact .call (o := .pop) (.call (o := .push true 5) .init trivial rfl) (by simp [Vec.Spec.valid, Vec.Spec.after]) rfl
  · intro p f
    cases f <;> rfl

/-- C65 for a deque or queue. -/
theorem deque_erase_remove {d : Deque.Deque α} {l : List α} (h : Deque.Spec.Reach d l) (p : α → Bool) (f : Nat) (hf : l.length < f) :
    ∃ d', eraseRemoveDeque p f d = some d' ∧ Deque.Rep d' (l.filter fun x => !p x) ∧ Deque.size d' = (l.filter fun x => !p x).length ∧
      (∀ i, Deque.at' d' i = (l.filter fun x => !p x)[i]?) ∧ d'.dropped = d.dropped ++ l.filter p ∧ d'.capmask = d.capmask := by
  obtain ⟨d', h1, h2, h3, h4⟩ := eraseRemoveDeque_spec (p := p) (Deque.reach_rep h) f hf
  exact ⟨d', h1, h2, h2.size, Deque.at_spec h2, h3, h4⟩

/-- C65: `c_erase_if` on a sorted map or set. -/
theorem smap_erase_if {κ ν : Type} [DecidableEq κ] {cmp : κ → κ → Int} (hc : Smap.Lawful cmp) {m : Smap.Map κ ν} {M : Smap.Spec.FMap κ ν}
    (h : Smap.Spec.Reach cmp m M) (inl : Bool) (p : κ × ν → Bool) (f : Nat) (hf : M.length < f) :
    ∃ it m', Smap.begin' m = some it ∧ eraseIfSmap cmp inl p f m it = some (m', (M.filter p).flatMap Smap.valueDrop) ∧
      Smap.Holds cmp m' (M.filter fun e => !p e) ∧ Smap.each m' = some (M.filter fun e => !p e) ∧ m'.size = (M.filter fun e => !p e).length := by
  obtain ⟨it, h1, h2⟩ := Smap.begin_seat (Smap.reach_holds hc h)
  obtain ⟨m', it', h3, h4⟩ := eraseIfSmap_spec hc inl p M [] m it f h2 hf
  have h5 := h4.holds
  simp only [List.nil_append, List.append_nil] at h5
  obtain ⟨it2, g1, g2⟩ := Smap.begin_seat h5
  have h6 := h5
  obtain ⟨t, fs, hR⟩ := h6
  refine ⟨it, m', h1, h3, h5, ?_, hR.size⟩
  simp only [Smap.each, g1, Option.bind_eq_bind, Option.bind_some]
  exact g2.each g2.len

example : ∃ v, eraseRemoveVec (· % 2 == 1) 8 sampleVec = some v ∧ v.size = 2 ∧ Vec.at' v 0 = some 2 ∧ Vec.at' v 1 = some 4 ∧ v.dropped = [1, 5, 7, 1, 9] := by
  exact ⟨_, rfl, rfl, rfl, rfl, rfl⟩

/-- A deque wrapped around its buffer: 9, 8, 1, 2, 3. -/
theorem sampleDeque_reach : ∃ d : Deque.Deque Nat, Deque.Spec.Reach d [9, 8, 1, 2, 3] ∧ d.start = 6 := by
  have h1 := Deque.Spec.Reach.call (o := .push true 1) Deque.Spec.Reach.init (by decide) rfl
  have h2 := Deque.Spec.Reach.call (o := .push true 2) h1 (by decide) rfl
  have h3 := Deque.Spec.Reach.call (o := .push true 3) h2 (by decide) rfl
  have h4 := Deque.Spec.Reach.call (o := .pushFront true 8) h3 (by decide) rfl
  have h5 := Deque.Spec.Reach.call (o := .pushFront true 9) h4 (by decide) rfl
  exact ⟨_, h5, rfl⟩

/-- The sorted map with the keys 1, 3 and 8. -/
example : ∃ it m', Smap.begin' Smap.sample = some it ∧ eraseIfSmap Smap.natCmp true (fun e => e.1 % 2 == 1) 9 Smap.sample it =
    some (m', [.key 1, .val 10, .key 3, .val 31]) ∧ Smap.each m' = some [(8, 80)] := by
  obtain ⟨it, m', h1, h2, _, h3, _⟩ := smap_erase_if Smap.natCmp_lawful Smap.sample_reach true (fun e => e.1 % 2 == 1) 9 (by decide)
  exact ⟨it, m', h1, h2, h3⟩

/-! ### C103 -/

/-- C103: `c_find_if` finds the first element satisfying the predicate, or gives NULL if there is none. -/
theorem find_if {W : Walker ι α} (p : α → Bool) {it : ι} {xs : List α} (h : Yields W it xs) (f : Nat) (hf : xs.length < f) :
    ∃ r, findLoop W none p f it = some r ∧ r.bind W.load = xs.find? p ∧ (r = none ↔ ∀ x ∈ xs, p x = false) := by
  obtain ⟨r, h1, h2, h3⟩ := find_all (p := p) h f hf
  refine ⟨r, h1, ?_, ?_⟩
  · cases r with
    | none =>
      rw [Option.bind_none, eq_comm, List.find?_eq_none]
      simpa using h2
    | some j => exact h3 j rfl
  · cases r with
    | none => simpa using h2
    | some j =>
      obtain ⟨x, hx, hp⟩ := List.any_eq_true.1 h2.symm
      simp only [reduceCtorEq, false_iff]
      intro hh; rw [hh x hx] at hp; cases hp

/-- C103: searching a part of a sequence, up to but not including the given end. -/
theorem find_in {W : Walker ι α} (p : α → Bool) {it e : ι} {l : List (ι × α)} (h : Path W it l e) (hl : ∀ q ∈ l, W.ref q.1 ≠ W.ref e)
    (f : Nat) (hf : l.length < f) : findLoop W (W.ref e) p f it = some ((l.find? fun q => p q.2).map Prod.fst) :=
  find_path h rfl hl f hf

/-- C103: `c_all_of`, `c_any_of` and `c_none_of`. -/
theorem quantifiers {W : Walker ι α} (p : α → Bool) {it : ι} {xs : List α} (h : Yields W it xs) (f : Nat) (hf : xs.length < f) :
    allOf W p f it = some (xs.all p) ∧ anyOf W p f it = some (xs.any p) ∧ noneOf W p f it = some (!xs.any p) := by
  obtain ⟨r, h1, h2, _⟩ := find_all (p := p) h f hf
  obtain ⟨r', g1, g2, _⟩ := find_all (p := fun x => !p x) h f hf
  refine ⟨?_, ?_, ?_⟩
  · simp only [allOf, g1, Option.bind_eq_bind, Option.bind_some, Option.some.injEq]
    rw [← Option.not_isSome, g2, List.not_any_eq_all_not]; simp
  · simp only [anyOf, h1, Option.bind_eq_bind, Option.bind_some, h2]
  · simp only [noneOf, h1, Option.bind_eq_bind, Option.bind_some, Option.some.injEq]
    rw [← Option.not_isSome, h2]

example : findLoop (vecWalker sampleVec) none (· > 4) 8 (Vec.begin sampleVec) = some (some ⟨some 2, 7⟩) ∧
    allOf (vecWalker sampleVec) (· < 9) 8 (Vec.begin sampleVec) = some false ∧ noneOf (vecWalker sampleVec) (· > 9) 8 (Vec.begin sampleVec) = some true := ⟨rfl, rfl, rfl⟩

/-! ### C104 -/

/-- C104: `c_append_if` to a vec appends clones of exactly the elements satisfying the predicate, in
order, as long as memory lasts. -/
theorem append_if_vec {β : Type} {W : Walker ι α} (p : α → Bool) (clone : α → β) {it : ι} {xs : List α} (h : Yields W it xs) {v : Vec.Vec β} {l ent outs : List β}
    (hv : Vec.Spec.Reach v l ent outs) (f : Nat) (hf : xs.length < f) :
    ∃ v', appendIf W p clone (fun v y => (Vec.push true v y).map Prod.fst) f it v = some v' ∧ Vec.Rep v' (l ++ (xs.filter p).map clone) ∧
      v'.size = l.length + (xs.filter p).length ∧ (∀ i, Vec.at' v' i = (l ++ (xs.filter p).map clone)[i]?) ∧ v'.dropped = v.dropped := by
  have hp : ∀ (s : Vec.Vec β) k y, (Vec.Rep s k ∧ s.dropped = v.dropped) →
      ∃ s', (fun v y => (Vec.push true v y).map Prod.fst) s y = some s' ∧ (Vec.Rep s' (k ++ [y]) ∧ s'.dropped = v.dropped) := by
    intro s k y ⟨hs, hd⟩
    obtain ⟨s', r, e1, e2, e3, e4⟩ := Vec.push_spec hs true y
    have hr : r = true := by
      cases r with
      | true => rfl
      | false => exact absurd (e4 rfl).2 (by simp)
    exact ⟨s', by simp [e1], e3 hr, e2.trans hd⟩
  obtain ⟨v', h1, h2, h3⟩ := append_yields (p := p) (clone := clone) (R := fun s k => Vec.Rep s k ∧ s.dropped = v.dropped) hp h f v l hf ⟨Vec.reach_rep hv, rfl⟩
  exact ⟨v', h1, h2, by rw [h2.size]; simp, Vec.at_spec h2, h3⟩

example : ∃ v, appendIf (vecWalker sampleVec) (· > 4) (· + 10) (fun v y => (Vec.push true v y).map Prod.fst) 8 (Vec.begin sampleVec) sampleVec = some v ∧
    v.size = 10 ∧ Vec.at' v 7 = some 15 ∧ Vec.at' v 8 = some 17 ∧ Vec.at' v 9 = some 19 := ⟨_, rfl, rfl, rfl, rfl, rfl⟩

/-! ### C105 -/

/-- C105: `c_reverse` on a vec reverses it. -/
theorem vec_reverse {v : Vec.Vec α} {l ent outs : List α} (h : Vec.Spec.Reach v l ent outs) (f : Nat) (hf : l.length < f) :
    ∃ v', reverseLoop Vec.at' Vec.setAt f 0 ((v.size : Int) - 1) v = some v' ∧ Vec.Rep v' l.reverse ∧ v'.size = l.length ∧
      (∀ i, Vec.at' v' i = l.reverse[i]?) ∧ v'.dropped = v.dropped := by
  have hr := Vec.reach_rep h
  obtain ⟨v', h1, h2, h3⟩ := reverseLoop_spec (get := Vec.at') (set := Vec.setAt) (R := fun s k => Vec.Rep s k ∧ s.dropped = v.dropped)
    (fun s k i hs _ => Vec.at_spec hs.1 i)
    (fun s k i x hs hi => by
      obtain ⟨s', e1, e2, e3⟩ := Vec.setAt_spec hs.1 hi x
      exact ⟨s', e1, e2, e3.trans hs.2⟩) f [] l [] v (by simpa using hr) hf
  simp only [List.nil_append, List.append_nil, List.length_nil] at h1 h2
  refine ⟨v', ?_, h2, by rw [h2.size]; simp, Vec.at_spec h2, h3⟩
  rw [hr.size, ← h1]; congr 1; simp

/-- C105 for a deque. -/
theorem deque_reverse {d : Deque.Deque α} {l : List α} (h : Deque.Spec.Reach d l) (f : Nat) (hf : l.length < f) :
    ∃ d', reverseLoop Deque.at' Deque.setAt f 0 ((Deque.size d : Int) - 1) d = some d' ∧ Deque.Rep d' l.reverse ∧ Deque.size d' = l.length ∧
      (∀ i, Deque.at' d' i = l.reverse[i]?) ∧ d'.dropped = d.dropped := by
  have hr := Deque.reach_rep h
  obtain ⟨d', h1, h2, h3⟩ := reverseLoop_spec (get := Deque.at') (set := Deque.setAt) (R := fun s k => Deque.Rep s k ∧ s.dropped = d.dropped)
    (fun s k i hs _ => Deque.at_spec hs.1 i)
    (fun s k i x hs hi => by
      obtain ⟨s', e1, e2, e3⟩ := Deque.setAt_spec hs.1 hi x
      exact ⟨s', e1, e2, e3.trans hs.2⟩) f [] l [] d (by simpa using hr) hf
  simp only [List.nil_append, List.append_nil, List.length_nil] at h1 h2
  refine ⟨d', ?_, h2, by rw [h2.size]; simp, Deque.at_spec h2, h3⟩
  rw [hr.size, ← h1]; congr 1; simp

/-- C105 for a plain array. -/
theorem array_reverse (l : List α) (f : Nat) (hf : l.length < f) :
    reverseLoop (fun (a : List α) i => a[i]?) (fun a i x => if i < a.length then some (a.set i x) else none) f 0 ((l.length : Int) - 1) l = some l.reverse := by
  obtain ⟨s, h1, h2⟩ := reverseLoop_spec (get := fun (a : List α) i => a[i]?) (set := fun a i x => if i < a.length then some (a.set i x) else none)
    (R := fun s k => s = k) (fun s k i hs _ => by rw [hs]) (fun s k i x hs hi => ⟨k.set i x, by subst hs; simp [hi], rfl⟩) f [] l [] l (by simp) hf
  simp only [List.nil_append, List.append_nil, List.length_nil] at h1 h2
  rw [← h2, ← h1]; congr 1; simp

example : ∃ v, reverseLoop Vec.at' Vec.setAt 8 0 6 sampleVec = some v ∧ Vec.at' v 0 = some 9 ∧ Vec.at' v 3 = some 4 ∧ Vec.at' v 6 = some 1 := ⟨_, rfl, rfl, rfl, rfl⟩

/-! ### C106 -/

/-- C106: `c_each_n(it, C, cnt, n)` visits exactly the first `n` elements, or all if there are fewer. -/
theorem each_n {W : Walker ι α} {it : ι} {xs : List α} (h : Yields W it xs) (n : Nat) (f : Nat) (hf : xs.length < f) :
    eachNLoop W n f 0 it = some (xs.take n) := by
  rw [eachN_yields h n f 0 hf]; simp

/-- C106 (partial as `filter_pipeline_partial`): `c_filter_zip` sees the pairs of elements at the same
position, up to the end of the shorter sequence. -/
theorem filter_zip_partial {ι₁ ι₂ β : Type} {V : Walker ι₁ α} {W : Walker ι₂ β} {i : ι₁} {j : ι₂} {xs : List α} {ys : List β} (hx : Yields V i xs) (hy : Yields W j ys)
    {ss : List (Stage (α × β))} (hc : counters ss < 20) (hb : flags ss ≤ 20) (hl : xs.length < 2 ^ 32) (f : Nat) (hf : xs.length < f) :
    filter (zipWalker V W) ss f (i, j) = some (pipe ss (xs.zip ys)) :=
  filter_spec hc hb (zip_yields hx hy) (by rw [List.length_zip]; omega) f (by rw [List.length_zip]; omega)

example : eachNLoop (vecWalker sampleVec) 3 8 0 (Vec.begin sampleVec) = some [1, 2, 5] := by decide
example : filter (zipWalker (vecWalker sampleVec) (rangeWalker 64)) [.filt fun e => e.1 > 4] 8 (Vec.begin sampleVec, ⟨some 1, finOf 6 1, 1⟩) = some [(5, 3), (7, 5)] := by decide

end Verif.Algo
