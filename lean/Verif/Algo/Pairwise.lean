import Verif.Algo.Props
/-
Advancing iterators and filtering adjacent pairs (`include/stc/sys/filter.h` 95-96, `vec.h` 239-245, `stack.h` 237-241).
-/
namespace Verif.Algo
open Spec

/-! ### Model -/

/-- vec.h:239-242 `_advance`, stack.h:237-238: the sum of pointers must not lie further than behind the
allocation, and NULL must not be added to. -/
def vecAdvance (v : Vec.Vec α) (it : Vec.Iter) (n : Nat) : Option Vec.Iter :=
  match it.ref with
  | none => none
  | some r =>
    if r + n ≤ v.cap then some (if r + n ≥ it.fin then { it with ref := none } else { it with ref := some (r + n) })
    else none

/-- vec.h:244-245 `_index`, stack.h:240-241: the difference to NULL is undefined. -/
def vecIndex (it : Vec.Iter) : Option Nat := it.ref

/-- `c_filter_pairwise` (filter.h 95-96): two iterators, the second one starts one element further. -/
def pairwise (W : Walker ι α) (adv : ι → Nat → Option ι) (ss : List (Stage (α × α))) (f : Nat) (start : ι) : Option (List (α × α)) :=
  (adv start 1).bind fun second => filter (zipWalker W W) ss f (start, second)

/-! ### Lemmas -/

theorem vecAdvance_vit {v : Vec.Vec α} {n k j : Nat} (hk : k < n) (hc : k + j ≤ v.cap) : vecAdvance v (vit n k) j = some (vit n (k + j)) := by
  simp only [vecAdvance, vit, if_pos hk, if_pos hc]
  by_cases h : k + j < n
  · rw [if_neg (by omega), if_pos h]
  · rw [if_pos (by omega), if_neg h]

/-! ### Properties -/

/-- C148 (partial: within the allocation, see `vec_advance_undefined`). Advancing an iterator of a vec or stack moves
it by that many elements; past the last one it becomes the end iterator. What is then iterated over are
the elements from there on. -/
theorem vec_advance_partial {v : Vec.Vec α} {l ent outs : List α} (h : Vec.Spec.Reach v l ent outs) (hl : l ≠ []) {n : Nat} (hn : n ≤ v.cap) :
    ∃ it, vecAdvance v (Vec.begin v) n = some it ∧ Yields (vecWalker v) it (l.drop n) ∧ vecIndex it = if n < l.length then some n else none := by
  have hr := Vec.reach_rep h
  have hpos := List.length_pos_iff.2 hl
  refine ⟨vit l.length n, ?_, ?_, rfl⟩
  · rw [vec_begin hr (Or.inl hl), vecAdvance_vit hpos (by omega), Nat.zero_add]
  · cases hd : v.data with
    | none => exact absurd (hr.null hd).2 hl
    | some b => exact vec_yields hd (hr.blk b hd).2.1 _ n rfl

/-- C148, refutation: advancing further than the allocation, or advancing the end iterator (so also the
first one of a new vec), is undefined. -/
theorem vec_advance_undefined {v : Vec.Vec α} {l ent outs : List α} (h : Vec.Spec.Reach v l ent outs) :
    (∀ n, v.cap < n → vecAdvance v (Vec.begin v) n = none) ∧ ∀ n fin, vecAdvance v ⟨none, fin⟩ n = none := by
  refine ⟨fun n hn => ?_, fun _ _ => rfl⟩
  unfold vecAdvance Vec.begin
  cases v.data with
  | none => simp
  | some b => simp; omega

/-- C148 (partial as C64, and the vec must not be empty). `c_filter_pairwise` over a vec or stack sees all pairs of
adjacent elements. -/
theorem pairwise_vec_partial {v : Vec.Vec α} {l ent outs : List α} (h : Vec.Spec.Reach v l ent outs) (hl : l ≠ []) {ss : List (Stage (α × α))}
    (hc : counters ss < 20) (hb : flags ss ≤ 20) (hx : l.length < 2 ^ 32) (f : Nat) (hf : l.length < f) :
    pairwise (vecWalker v) (vecAdvance v) ss f (Vec.begin v) = some (pipe ss (l.zip l.tail)) := by
  have hr := Vec.reach_rep h
  have hcap : 1 ≤ v.cap := by
    have := List.length_pos_iff.2 hl
    cases hd : v.data with
    | none => exact absurd (hr.null hd).2 hl
    | some b =>
      have := (hr.blk b hd)
      have h2 := congrArg List.length this.2.1
      simp only [List.length_take, List.length_map] at h2
      have := this.1
      omega
  obtain ⟨it, e1, e2, -⟩ := vec_advance_partial h hl hcap
  rw [pairwise, e1, Option.bind_some, filter_zip_partial (iterate_vec_partial h (Or.inl hl)) e2 hc hb hx f hf, List.drop_one]

/-- C148 (partial as C64, and the deque must not be empty). The same for a deque or queue. -/
theorem pairwise_deque_partial {d : Deque.Deque α} {l : List α} (h : Deque.Spec.Reach d l) (hl : l ≠ []) {ss : List (Stage (α × α))}
    (hc : counters ss < 20) (hb : flags ss ≤ 20) (hx : l.length < 2 ^ 32) (f : Nat) (hf : l.length < f) :
    pairwise (dequeWalker d) (Deque.advance d) ss f (Deque.begin d) = some (pipe ss (l.zip l.tail)) := by
  have hr := Deque.reach_rep h
  have hpos := List.length_pos_iff.2 hl
  obtain ⟨b, hbf, _⟩ := hr.blk_of_ne hl
  obtain ⟨V, hV, ht⟩ := hr.view (by simp [hbf])
  have e1 : Deque.advance d (Deque.begin d) 1 = some (Deque.iterOf d.start d.capmask l.length 1) := by
    rw [Deque.begin_view hV, Deque.advance_view hV hpos]
  rw [pairwise, e1, Option.bind_some,
    filter_zip_partial (iterate_deque h) (deque_yields hV ht _ 1 rfl) hc hb hx f hf, List.drop_one]

/-- C148 (partial as C64). The same for a list, also an empty one. -/
theorem pairwise_list_partial {F : Clist.Fns α} (hw : StrictWeak F.less) {m : Clist.Mem α} (h : Clist.Spec.Reach F m) (s : Nat) {ss : List (Stage (α × α))}
    (hc : counters ss < 20) (hb : flags ss ≤ 20) (hx : (Clist.Spec.contents m s).length < 2 ^ 32) (f : Nat) (hf : (Clist.Spec.contents m s).length < f) :
    ((Clist.begin s (m.lst s)).bind fun it => pairwise (listWalker m) (fun i n => Clist.advance m.heap m.last n i) ss f it) =
      some (pipe ss ((Clist.Spec.contents m s).zip (Clist.Spec.contents m s).tail)) := by
  obtain ⟨G, R⟩ := Clist.reach_rep hw h
  obtain ⟨it, h1, h2, h3⟩ := Clist.begin_spec (R.list s) s
  have hl := R.list s
  obtain ⟨it', a1, a2, a3⟩ := Clist.advance_spec (obj := m.last) (o := s) 1 (P := []) (S := G s) (by simpa using hl) h2 h3
  have y1 := list_yields (m := m) (o := s) (G s) [] it (by simpa using hl) h2 h3
  have y2 := list_yields (m := m) (o := s) ((G s).drop 1) ([] ++ (G s).take 1) it' (by rw [List.nil_append, List.take_append_drop]; exact hl) a2 a3
  have hcn := congrFun R.contents s
  have h1' : Clist.begin s (m.lst s) = some it := h1
  rw [h1', Option.bind_some, pairwise, a1, Option.bind_some]
  rw [hcn] at hx hf ⊢
  rw [filter_zip_partial y1 y2 hc hb hx f hf]
  congr 3
  simp only [Clist.vals, Clist.seqs, List.drop_one, List.map_tail]

/-- C148 (partial as C64). The same for a sorted map, also an empty one. -/
theorem pairwise_smap_partial {κ ν : Type} [DecidableEq κ] {cmp : κ → κ → Int} (hw : Smap.Lawful cmp) {m : Smap.Map κ ν} {M : Smap.Spec.FMap κ ν}
    (h : Smap.Spec.Reach cmp m M) {ss : List (Stage ((κ × ν) × (κ × ν)))}
    (hc : counters ss < 20) (hb : flags ss ≤ 20) (hx : M.length < 2 ^ 32) (f : Nat) (hf : M.length < f) :
    ((Smap.begin' m).bind fun it => pairwise (smapWalker m) (fun i n => Smap.advance m n i) ss f it) = some (pipe ss (M.zip M.tail)) := by
  obtain ⟨it, h1, h2⟩ := Smap.begin_seat (Smap.reach_holds hw h)
  obtain ⟨it', P', h3, h4⟩ := Smap.advance_seat (n := 1) h2
  rw [h1, Option.bind_some, pairwise, h3, Option.bind_some,
    filter_zip_partial (smap_yields _ _ _ h2) (smap_yields _ _ _ h4) hc hb hx f hf, List.drop_one]

example : pairwise (vecWalker sampleVec) (vecAdvance sampleVec) [.filt fun e => e.1 < e.2] 8 (Vec.begin sampleVec) =
    some [(1, 2), (2, 5), (4, 7), (1, 9)] := by
  rw [pairwise_vec_partial sampleVec_reach (by decide) (by decide) (by decide) (by decide) 8 (by decide)]
  decide

end Verif.Algo
