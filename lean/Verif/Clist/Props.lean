import Verif.Clist.Rep
/- C17 (sequence and cycle), C18 (remove), C19 (sort), C65 (c_erase_if), C72 (ownership), C94
(find and equality), C95 (iterators). -/
namespace Verif.Clist
open scoped List
open Spec
variable {α : Type} {F : Fns α}

/-! ### C17 -/

/-- C17: in every reachable state, every valid call is defined and does to the sequences seen by
iteration exactly what the same edit does to mathematical lists; only the named lists change. -/
theorem list_is_sequence (hw : StrictWeak F.less) {m : Mem α} (h : Reach F m) (o : Op α)
    (hv : valid (contents m) o) :
    ∃ m' r, run F m o = some (m', r) ∧ Reach F m' ∧ After F (contents m) r (contents m') o := by
  obtain ⟨G, R⟩ := reach_rep hw h
  have hv' := hv
  rw [R.contents] at hv'
  obtain ⟨m', r, G', e1, e2, e3⟩ := good_of_valid (F := F) hw R hv'
  exact ⟨m', r, e1, .call h hv e1, by rw [R.contents, e2.contents]; exact e3⟩

theorem seg_get {h : Heap α} {l : List (Nat × α)} {q : Nat} (hs : Seg h l q) {i a : Nat} {v : α}
    (hi : l[i]? = some (a, v)) : h.rd a = some ⟨v, some (((addrs l)[i + 1]?).getD q)⟩ := by
  induction l generalizing i with
  | nil => simp at hi
  | cons x l ih =>
    cases i with
    | zero =>
      simp only [List.getElem?_cons_zero, Option.some.injEq] at hi
      subst hi
      rw [hs.1]
      cases l <;> simp
    | succ i =>
      simp only [List.getElem?_cons_succ] at hi
      simpa using ih hs.2 hi

theorem isList_cycle {m : Mem α} {s : Nat} {l : List (Nat × α)} (i : IsList m.heap (m.last s) l) :
    OneCycle m s (vals l) (addrs l) := by
  refine ⟨by simp [addrs], i.nodup, ?_, ?_⟩
  · rw [i.last]; simp [lastA, addrs]
  · intro k a v h1 h2
    have hk : l[k]? = some (a, v) := by
      simp only [addrs, vals, List.getElem?_map, Option.map_eq_some_iff] at h1 h2
      obtain ⟨p, hp, rfl⟩ := h1
      obtain ⟨p', hp', rfl⟩ := h2
      rw [hp] at hp'; cases hp'; exact hp
    rw [seg_get i.cyc hk]
    have hlt : k < l.length := (List.getElem?_eq_some_iff.1 hk).1
    have hal : (addrs l).length = l.length := by simp [addrs]
    rw [hal]
    by_cases hn : k + 1 < l.length
    · rw [Nat.mod_eq_of_lt hn]
      have : k + 1 < (addrs l).length := by omega
      rw [List.getElem?_eq_getElem this]; rfl
    · have hkl : k + 1 = l.length := by omega
      rw [hkl, Nat.mod_self, List.getElem?_eq_none (by omega)]
      cases l with
      | nil => simp at hlt
      | cons x l => rfl

/-- C17: the nodes of every list form one cycle reached from the last node, holding the contents
in order; lists share no node, and every allocated node belongs to a list (nothing leaks). -/
theorem list_one_cycle (hw : StrictWeak F.less) {m : Mem α} (h : Reach F m) :
    ∃ as : Nat → List Nat, (∀ s, OneCycle m s (contents m s) (as s)) ∧
      (∀ s t, s ≠ t → ∀ a ∈ as s, a ∉ as t) ∧ (∀ a, (Buf.rd m.heap a).isSome → ∃ s, a ∈ as s) := by
  obtain ⟨G, R⟩ := reach_rep hw h
  refine ⟨fun s => addrs (G s), fun s => ?_, R.disj, fun a ha => ?_⟩
  · rw [R.contents]; exact isList_cycle (R.list s)
  · obtain ⟨c, hc⟩ := Option.isSome_iff_exists.1 ha
    exact R.owned a c hc

/-- C17: iteration, `count`, `front`, `back` and `is_empty` agree with the sequence. -/
theorem list_queries (hw : StrictWeak F.less) {m : Mem α} (h : Reach F m) (s : Nat) :
    each (m.lst s) = some (contents m s) ∧ count (m.lst s) = some (contents m s).length ∧
    front (m.lst s) = (contents m s).head? ∧ back (m.lst s) = (contents m s).getLast? ∧
    (m.last s = none ↔ contents m s = []) := by
  obtain ⟨G, R⟩ := reach_rep hw h
  have i := R.list s
  have hc : contents m s = vals (G s) := congrFun R.contents s
  rw [hc]
  refine ⟨each_spec i, by rw [Mem.lst, count_spec i, length_vals], ?_, ?_, ?_⟩
  · cases hG : G s with
    | nil =>
      rw [hG] at i
      have h0 : m.last s = none := i.last
      simp [front, Mem.lst, h0]
    | cons x S => rw [hG] at i; rw [Mem.lst, front_spec i]; rfl
  · by_cases hG : G s = []
    · rw [hG] at i
      have h0 : m.last s = none := i.last
      simp [back, Mem.lst, h0, hG]
    · obtain ⟨l', z, v, hl⟩ := exists_snoc hG
      rw [hl] at i
      rw [Mem.lst, back_spec i, hl]; simp [vals]
  · rw [i.last, lastA_eq_none]
    cases G s <;> simp [vals]

/-! ### C18 -/

/-- C18: `remove` deletes exactly the elements equal to the value, keeps the order of the others,
destroys the deleted ones in order and returns their number. -/
theorem list_remove (hw : StrictWeak F.less) {m : Mem α} (h : Reach F m) (s : Nat) (v : α) :
    ∃ m' r, run F m (.remove s v) = some (m', r) ∧
      contents m' s = (contents m s).filter (fun x => !F.eq x v) ∧
      (∀ t, t ≠ s → contents m' t = contents m t) ∧
      r.n = (contents m s).countP (fun x => F.eq x v) ∧
      r.dropped = (contents m s).filter (fun x => F.eq x v) := by
  obtain ⟨m', r, e1, _, e2, e3, e4⟩ := list_is_sequence hw h (.remove s v) trivial
  refine ⟨m', r, e1, by rw [e2]; exact if_pos rfl, fun t ht => by rw [e2]; exact if_neg ht, ?_, e3⟩
  rw [e4, List.countP_eq_length_filter]

/-! ### C19 -/

/-- C19: `sort` returns true with the list a sorted permutation, or false with the list
unchanged; it returns false only for an empty list or when memory runs out. -/
theorem list_sort (hw : StrictWeak F.less) {m : Mem α} (h : Reach F m) (s : Nat) (ok : Nat → Bool) :
    ∃ m' r, run F m (.sort s ok) = some (m', r) ∧
      contents m' s ~ contents m s ∧ (∀ t, t ≠ s → contents m' t = contents m t) ∧
      (r.ok = true → Sort.Spec.Sorted F.less (contents m' s)) ∧
      (r.ok = false → contents m' s = contents m s) ∧
      ((∀ k, ok k = true) → r.ok = true ∨ contents m s = []) := by
  obtain ⟨m', r, e1, _, l', e2, e3, _, e5, e6, e7⟩ := list_is_sequence hw h (.sort s ok) trivial
  have hs : contents m' s = l' := by rw [e2]; exact if_pos rfl
  refine ⟨m', r, e1, by rw [hs]; exact e3, fun t ht => by rw [e2]; exact if_neg ht,
    by rw [hs]; exact e5, by rw [hs]; exact e6, fun hk => ?_⟩
  by_cases hc : contents m s = []
  · exact .inr hc
  · exact .inl (e7 hk hc)

/-! ### C65 -/

/-- C65: `c_erase_if` on a list erases exactly the elements that satisfy the predicate. -/
theorem list_erase_if (hw : StrictWeak F.less) {m : Mem α} (h : Reach F m) (s : Nat) (p : α → Bool) :
    ∃ m' r, run F m (.eraseIf s p) = some (m', r) ∧
      contents m' s = (contents m s).filter (fun x => !p x) ∧
      (∀ t, t ≠ s → contents m' t = contents m t) ∧ r.dropped = (contents m s).filter p := by
  obtain ⟨m', r, e1, _, e2, e3⟩ := list_is_sequence hw h (.eraseIf s p) trivial
  exact ⟨m', r, e1, by rw [e2]; exact if_pos rfl, fun t ht => by rw [e2]; exact if_neg ht, e3⟩

/-! ### C72 -/

open Classical in
/-- How often `a` occurs in the lists below `N`. -/
noncomputable def tot (N : Nat) (L : Nat → List α) (a : α) : Nat := ((List.range N).flatMap L).count a

open Classical in
theorem tot_succ (N : Nat) (L : Nat → List α) (a : α) : tot (N + 1) L a = tot N L a + (L N).count a := by
  unfold tot
  rw [List.range_succ, List.flatMap_append, List.count_append]
  simp

open Classical in
theorem tot_put {N s : Nat} (hs : s < N) (L : Nat → List α) (l : List α) (a : α) :
    tot N (put L s l) a + (L s).count a = tot N L a + l.count a := by
  have hout : ∀ M, M ≤ s → tot M (put L s l) a = tot M L a := by
    intro M
    induction M with
    | zero => intro _; rfl
    | succ M ih =>
      intro hM
      have h1 : put L s l M = L M := if_neg (by omega)
      rw [tot_succ, tot_succ, ih (by omega), h1]
  induction N with
  | zero => omega
  | succ N ih =>
    rw [tot_succ, tot_succ]
    by_cases h : s = N
    · subst h
      have h1 : put L s l s = l := if_pos rfl
      rw [hout s (Nat.le_refl _), h1]; omega
    · have h1 : put L s l N = L N := if_neg (by omega)
      have := ih (by omega)
      rw [h1]; omega

open Classical in
theorem count_split (a : α) (l : List α) (k n : Nat) :
    l.count a = (l.take k).count a + ((l.drop k).take n).count a + (l.drop (k + n)).count a := by
  conv_lhs => rw [← List.take_append_drop k l, ← List.take_append_drop n (l.drop k), List.drop_drop]
  rw [List.count_append, List.count_append]; omega

open Classical in
theorem count_split2 (a : α) (l : List α) (k : Nat) : l.count a = (l.take k).count a + (l.drop k).count a := by
  conv_lhs => rw [← List.take_append_drop k l]
  rw [List.count_append]

open Classical in
theorem count_filter2 (a : α) (l : List α) (p : α → Bool) :
    l.count a = (l.filter fun x => !p x).count a + (l.filter p).count a := by
  rw [Nat.add_comm, ← List.count_append]
  exact (List.filter_append_perm p l).symm.count_eq a

open Classical in
/-- Each call conserves elements: what was there and what came in is there or was destroyed. -/
theorem conserve {N : Nat} {L L' : Nat → List α} {r : Reply α} {o : Op α} (hA : After F L r L' o)
    (hN : ∀ s ∈ ids o, s < N) (hv : valid L o) (a : α) :
    tot N L' a + r.dropped.count a = tot N L a + (entered F L o).count a := by
  cases o with
  | pushBack s w v =>
    obtain ⟨rfl, h2⟩ := hA
    have := tot_put (hN s (by simp [ids])) L (L s ++ [v]) a
    rw [List.count_append] at this
    simp only [entered, h2, List.count_nil]; omega
  | pushFront s w v =>
    obtain ⟨rfl, h2⟩ := hA
    have := tot_put (hN s (by simp [ids])) L (v :: L s) a
    have h3 : (v :: L s).count a = [v].count a + (L s).count a := by
      rw [← List.count_append]; rfl
    simp only [entered, h2, List.count_nil]; omega
  | putN s w vs =>
    obtain ⟨rfl, h2⟩ := hA
    have := tot_put (hN s (by simp [ids])) L (L s ++ vs) a
    rw [List.count_append] at this
    simp only [entered, h2, List.count_nil]; omega
  | popFront s =>
    obtain ⟨rfl, h2⟩ := hA
    have := tot_put (hN s (by simp [ids])) L (L s).tail a
    have h3 := count_split2 a (L s) 1
    rw [List.drop_one] at h3
    simp only [entered, h2, List.count_nil]; omega
  | insertAt s k w v =>
    obtain ⟨rfl, h2⟩ := hA
    have := tot_put (hN s (by simp [ids])) L ((L s).take k ++ [v] ++ (L s).drop k) a
    rw [List.count_append, List.count_append] at this
    have h3 := count_split2 a (L s) k
    simp only [entered, h2, List.count_nil]; omega
  | insertEnd s w v =>
    obtain ⟨rfl, h2⟩ := hA
    have := tot_put (hN s (by simp [ids])) L (L s ++ [v]) a
    rw [List.count_append] at this
    simp only [entered, h2, List.count_nil]; omega
  | eraseAt s k =>
    obtain ⟨rfl, h2⟩ := hA
    have := tot_put (hN s (by simp [ids])) L ((L s).take k ++ (L s).drop (k + 1)) a
    rw [List.count_append] at this
    have h3 := count_split a (L s) k 1
    simp only [entered, h2, List.count_nil]; omega
  | eraseRange s k n =>
    obtain ⟨rfl, h2⟩ := hA
    have := tot_put (hN s (by simp [ids])) L ((L s).take k ++ (L s).drop (k + n)) a
    rw [List.count_append] at this
    have h3 := count_split a (L s) k n
    simp only [entered, h2, List.count_nil]; omega
  | eraseToEnd s k =>
    obtain ⟨rfl, h2⟩ := hA
    have := tot_put (hN s (by simp [ids])) L ((L s).take k) a
    have h3 := count_split2 a (L s) k
    simp only [entered, h2, List.count_nil]; omega
  | splice s k t =>
    obtain ⟨rfl, h2⟩ := hA
    have hst : t ≠ s := fun h => hv.1 h.symm
    have h1 := tot_put (hN s (by simp [ids])) L ((L s).take k ++ L t ++ (L s).drop k) a
    have h4 := tot_put (hN t (by simp [ids])) (put L s ((L s).take k ++ L t ++ (L s).drop k)) [] a
    have h5 : put L s ((L s).take k ++ L t ++ (L s).drop k) t = L t := if_neg hst
    rw [h5] at h4
    rw [List.count_append, List.count_append] at h1
    have h3 := count_split2 a (L s) k
    simp only [entered, h2, List.count_nil] at *; omega
  | spliceRange s k t i n =>
    obtain ⟨rfl, h2⟩ := hA
    have hst : t ≠ s := fun h => hv.1 h.symm
    have h1 := tot_put (hN s (by simp [ids])) L ((L s).take k ++ ((L t).drop i).take n ++ (L s).drop k) a
    have h4 := tot_put (hN t (by simp [ids])) (put L s ((L s).take k ++ ((L t).drop i).take n ++ (L s).drop k))
      ((L t).take i ++ (L t).drop (i + n)) a
    have h5 : put L s ((L s).take k ++ ((L t).drop i).take n ++ (L s).drop k) t = L t := if_neg hst
    rw [h5] at h4
    rw [List.count_append, List.count_append] at h1
    rw [List.count_append] at h4
    have h3 := count_split2 a (L s) k
    have h6 := count_split a (L t) i n
    simp only [entered, h2, List.count_nil] at *; omega
  | splitOff s i n t =>
    obtain ⟨rfl, h2⟩ := hA
    have h1 := tot_put (hN s (by simp [ids])) L ((L s).take i ++ (L s).drop (i + n)) a
    have h4 := tot_put (hN t (by simp [ids])) (put L s ((L s).take i ++ (L s).drop (i + n)))
      (((L s).drop i).take n) a
    rw [List.count_append] at h1
    have h6 := count_split a (L s) i n
    simp only [entered, h2, List.count_nil] at *; omega
  | moveNode s k t =>
    obtain ⟨rfl, h2⟩ := hA
    have h1 := tot_put (hN s (by simp [ids])) L ((L s).take k ++ (L s).drop (k + 1)) a
    have h4 := tot_put (hN t (by simp [ids])) (put L s ((L s).take k ++ (L s).drop (k + 1)))
      (put L s ((L s).take k ++ (L s).drop (k + 1)) t ++ ((L s).drop k).take 1) a
    rw [List.count_append] at h1 h4
    have h6 := count_split a (L s) k 1
    simp only [entered, h2, List.count_nil] at *; omega
  | reverse s =>
    obtain ⟨rfl, h2⟩ := hA
    have := tot_put (hN s (by simp [ids])) L (L s).reverse a
    rw [List.count_reverse] at this
    simp only [entered, h2, List.count_nil]; omega
  | remove s v =>
    obtain ⟨rfl, h2, _⟩ := hA
    have := tot_put (hN s (by simp [ids])) L ((L s).filter fun x => !F.eq x v) a
    have h3 := count_filter2 a (L s) (fun x => F.eq x v)
    simp only [entered, h2, List.count_nil]; omega
  | eraseIf s p =>
    obtain ⟨rfl, h2⟩ := hA
    have := tot_put (hN s (by simp [ids])) L ((L s).filter fun x => !p x) a
    have h3 := count_filter2 a (L s) p
    simp only [entered, h2, List.count_nil]; omega
  | sort s ok =>
    obtain ⟨l', rfl, h2, h3, _⟩ := hA
    have := tot_put (hN s (by simp [ids])) L l' a
    have h4 := h2.count_eq a
    simp only [entered, h3, List.count_nil]; omega
  | copy s t w =>
    have hA' : if s = t then L' = L ∧ r.dropped = [] else L' = put L s ((L t).map F.cl) ∧ r.dropped = L s := hA
    by_cases hst : s = t
    · rw [if_pos hst] at hA'
      obtain ⟨rfl, h2⟩ := hA'
      simp only [entered, h2, if_pos hst]
    · rw [if_neg hst] at hA'
      obtain ⟨rfl, h2⟩ := hA'
      have := tot_put (hN s (by simp [ids])) L ((L t).map F.cl) a
      simp only [entered, h2, if_neg hst]; omega
  | move s t =>
    obtain ⟨rfl, h2⟩ := hA
    have h1 := tot_put (hN s (by simp [ids])) L [] a
    have h4 := tot_put (hN t (by simp [ids])) (put L s []) (L s) a
    by_cases hst : s = t
    · subst hst
      have h5 : put L s [] s = [] := if_pos rfl
      rw [if_pos rfl] at h2
      rw [h5] at h4
      simp only [entered, h2, List.count_nil] at *; omega
    · have h5 : put L s [] t = L t := if_neg (fun h => hst h.symm)
      rw [if_neg hst] at h2
      rw [h5] at h4
      simp only [entered, h2, List.count_nil] at *; omega
  | clear s =>
    obtain ⟨rfl, h2⟩ := hA
    have := tot_put (hN s (by simp [ids])) L [] a
    simp only [entered, h2, List.count_nil] at *; omega

theorem own_reach {N : Nat} {m : Mem α} {ent dr : List α} (h : Own F N m ent dr) : Reach F m := by
  induction h with
  | init => exact .init
  | call _ hv _ hr ih => exact .call ih hv hr

/-- C72: every element that entered the lists is still stored in exactly one place or was
destroyed exactly once. -/
theorem list_ownership (hw : StrictWeak F.less) {N : Nat} {m : Mem α} {ent dr : List α} (h : Own F N m ent dr) :
    ent ~ dr ++ (List.range N).flatMap (contents m) := by
  classical
  rw [List.perm_iff_count]
  intro a
  rw [List.count_append]
  show _ = _ + tot N (contents m) a
  induction h with
  | init =>
    have hz : ∀ N, tot N (contents (Mem.init (α := α))) a = 0 := by
      intro N
      induction N with
      | zero => rfl
      | succ N ih => rw [tot_succ, ih]; simp [contents, Mem.lst, Mem.init, each, begin, eachLoop]
    simp [hz]
  | call h0 hv hN hr ih =>
    obtain ⟨m', r, e1, _, e3⟩ := list_is_sequence hw (own_reach h0) _ hv
    rw [hr] at e1
    cases e1
    have := conserve e3 hN hv a
    rw [List.count_append, List.count_append]
    omega

/-! ### C94 -/

theorem at_same {m : Mem α} {G : Nat → List (Nat × α)} (R : Rep m G) {s k : Nat} {P S : List (Nat × α)} {it : Iter}
    (hG : G s = P ++ S) (hk : k = P.length) (h1 : At P S it) (h2 : it.home = some s) :
    ∃ jt, seat m s k = some jt ∧ Same it jt := by
  obtain ⟨jt, j1, j2, j3⟩ := seat_spec R s k
  rw [hG, hk, List.take_left, List.drop_left] at j2
  refine ⟨jt, j1, by rw [h1.1, j2.1], by rw [h2, j3], fun hr => ?_⟩
  have hS : S ≠ [] := by rintro rfl; exact hr h1.1
  rw [h1.2 hS, j2.2 hS]

/-- C94: `find` returns the iterator of the first element equal to the value, fit for erasing or
inserting there, and an end iterator if there is none. -/
theorem list_find (hw : StrictWeak F.less) {m : Mem α} (h : Reach F m) {ρ : Type} (eq : α → ρ → Bool) (s : Nat) (v : ρ) :
    ∃ it, find eq s m.heap m.last v = some it ∧
      ((it.ref = none ∧ ∀ x ∈ contents m s, eq x v = false) ∨
        ∃ k x jt, (contents m s)[k]? = some x ∧ eq x v = true ∧ (∀ y ∈ (contents m s).take k, eq y v = false) ∧
          seat m s k = some jt ∧ Same it jt) := by
  obtain ⟨G, R⟩ := reach_rep hw h
  have hc : contents m s = vals (G s) := congrFun R.contents s
  have i := R.list s
  obtain ⟨b, e1, e2, e3⟩ := begin_spec i s
  have e1' : begin s ⟨m.heap, m.last s⟩ = some b := e1
  rcases findLoop_spec (eq := eq) (val := v) (obj := m.last) (f := m.heap.length + 1) (P := []) (M := G s) (S := [])
    (by simpa using i) (by simpa using e2) e3 (by have := i.length_le; omega) with
    ⟨A, x, B, it, h1, h2, h3, h4, h5, h6⟩ | ⟨h1, h2⟩
  · refine ⟨it, ?_, .inr ⟨A.length, x.2, ?_⟩⟩
    · simp only [find, e1', findIn, Option.bind_eq_bind, Option.bind_some]
      have h4' : findLoop eq m.heap m.last v «end».ref (m.heap.length + 1) b = some (some it) := h4
      rw [h4']; rfl
    · obtain ⟨jt, j1, j2, j3⟩ := seat_spec R s A.length
      rw [h1, List.take_left, List.drop_left] at j2
      refine ⟨jt, ?_, h3, ?_, j1, ?_, ?_, ?_⟩
      · rw [hc, h1]; simp [vals]
      · rw [hc, h1]
        intro y hy
        simp only [vals_append] at hy
        rw [List.take_left' (by simp)] at hy
        obtain ⟨p, hp, rfl⟩ := List.mem_map.1 hy
        exact h2 p hp
      · rw [h5.1, j2.1]; rfl
      · rw [h6, j3]
      · intro _
        rw [h5.2 (by simp), j2.2 (by simp)]; simp
  · refine ⟨{ («end» : Iter) with ref := none }, ?_, .inl ⟨rfl, ?_⟩⟩
    · simp only [find, e1', findIn, Option.bind_eq_bind, Option.bind_some]
      have h2' : findLoop eq m.heap m.last v «end».ref (m.heap.length + 1) b = some none := h2
      rw [h2']; rfl
    · rw [hc]
      intro y hy
      obtain ⟨p, hp, rfl⟩ := List.mem_map.1 hy
      exact h1 p hp

/-- C94: `find_in` searches exactly the given range; without a match the result is an end iterator. -/
theorem list_find_in (hw : StrictWeak F.less) {m : Mem α} (h : Reach F m) {ρ : Type} (eq : α → ρ → Bool) (s i n : Nat)
    (v : ρ) (hn : i + n ≤ (contents m s).length) :
    ∃ it1 it2 it, seat m s i = some it1 ∧ seat m s (i + n) = some it2 ∧ findIn eq m.heap m.last it1 it2 v = some it ∧
      ((it.ref = none ∧ ∀ k x, i ≤ k → k < i + n → (contents m s)[k]? = some x → eq x v = false) ∨
        ∃ k x jt, i ≤ k ∧ k < i + n ∧ (contents m s)[k]? = some x ∧ eq x v = true ∧
          (∀ k' y, i ≤ k' → k' < k → (contents m s)[k']? = some y → eq y v = false) ∧
          seat m s k = some jt ∧ Same it jt) := by
  obtain ⟨G, R⟩ := reach_rep hw h
  have hc : contents m s = vals (G s) := congrFun R.contents s
  have il := R.list s
  rw [hc, length_vals] at hn
  obtain ⟨it1, e1, h1, o1⟩ := seat_spec R s i
  obtain ⟨it2, e2, h2, _⟩ := seat_spec R s (i + n)
  have hsp := split3 (G s) i n
  have hP : ((G s).take i).length = i := by simp; omega
  have hM : (((G s).drop i).take n).length = n := by simp; omega
  have hget : ∀ k x, i ≤ k → k < i + n → (vals (G s))[k]? = some x →
      ∃ p, (((G s).drop i).take n)[k - i]? = some p ∧ p.2 = x := by
    intro k x hk1 hk2 hx
    simp only [vals, List.getElem?_map, Option.map_eq_some_iff] at hx
    obtain ⟨p, hp, hq⟩ := hx
    refine ⟨p, ?_, hq⟩
    rw [List.getElem?_take_of_lt (by omega), List.getElem?_drop, ← hp]
    congr 1; omega
  rcases findLoop_spec (eq := eq) (val := v) (obj := m.last) (o := s) (it := it1) (f := m.heap.length + 1)
    (P := (G s).take i) (M := ((G s).drop i).take n) (S := (G s).drop (i + n)) (by rw [hsp]; exact il)
    (by rw [← List.drop_drop, List.take_append_drop]; exact h1) o1
    (by have := il.length_le; omega) with
    ⟨A, x, B, it, k1, k2, k3, k4, k5, k6⟩ | ⟨k1, k2⟩
  · have hAn : A.length < n := by rw [k1] at hM; simp at hM; omega
    refine ⟨it1, it2, it, e1, e2, ?_, .inr ?_⟩
    · simp only [findIn, h2.1, k4, Option.bind_eq_bind, Option.bind_some]
    · have hG : G s = ((G s).take i ++ A) ++ (x :: B ++ (G s).drop (i + n)) := by
        conv_lhs => rw [← hsp, k1]
        simp
      obtain ⟨jt, j1, j2⟩ := at_same R (k := i + A.length) hG (by simp; omega) k5 k6
      refine ⟨i + A.length, x.2, jt, by omega, by omega, ?_, k3, ?_, j1, j2⟩
      · rw [hc, hG, vals_append, List.getElem?_append_right (by simp; omega)]
        have : i + A.length - (vals ((G s).take i ++ A)).length = 0 := by simp; omega
        rw [this]; rfl
      · intro k' y hk1 hk2 hy
        rw [hc] at hy
        obtain ⟨p, hp, rfl⟩ := hget k' y hk1 (by omega) hy
        rw [k1, List.getElem?_append_left (by omega)] at hp
        exact k2 p (List.mem_of_getElem? hp)
  · refine ⟨it1, it2, { it2 with ref := none }, e1, e2, ?_, .inl ⟨rfl, ?_⟩⟩
    · simp only [findIn, h2.1, k2, Option.bind_eq_bind, Option.bind_some]
    · intro k x hk1 hk2 hx
      rw [hc] at hx
      obtain ⟨p, hp, rfl⟩ := hget k x hk1 hk2 hx
      exact k1 p (List.mem_of_getElem? hp)

/-- C94: list equality is equal length and element-wise equality in order. -/
theorem list_eq (hw : StrictWeak F.less) {m : Mem α} (h : Reach F m) (eqv : α → α → Bool) (s t : Nat) :
    ∃ b, eq eqv m.heap (m.last s) (m.last t) = some b ∧
      (b = true ↔ (contents m s).length = (contents m t).length ∧
        ∀ (i : Nat) x y, (contents m s)[i]? = some x → (contents m t)[i]? = some y → eqv x y = true) := by
  obtain ⟨G, R⟩ := reach_rep hw h
  have hs : contents m s = vals (G s) := congrFun R.contents s
  have ht : contents m t = vals (G t) := congrFun R.contents t
  refine ⟨_, eq_spec (R.list s) (R.list t), ?_⟩
  rw [hs, ht, Bool.and_eq_true, decide_eq_true_iff, List.all_eq_true, length_vals, length_vals]
  refine and_congr_right fun _ => ⟨fun hz i x y hx hy => ?_, fun hz p hp => ?_⟩
  · refine hz (x, y) (List.mem_iff_getElem?.2 ⟨i, ?_⟩)
    rw [List.getElem?_zip_eq_some]; exact ⟨hx, hy⟩
  · obtain ⟨i, hi⟩ := List.mem_iff_getElem?.1 hp
    rw [List.getElem?_zip_eq_some] at hi
    exact hz i p.1 p.2 hi.1 hi.2

/-! ### C95 -/

/-- C95: the iterator from `insert_at` designates the new element, and is as good as one obtained
by walking there from the beginning. -/
theorem list_insert_iter (hw : StrictWeak F.less) {m : Mem α} (h : Reach F m) {s k w : Nat} (v : α)
    (hk : k ≤ (contents m s).length) :
    ∃ it l it' jt, seat m s k = some it ∧ insertAt (m.lst s) it (some w) v = some (l, it') ∧
      seat (m.put s l) s k = some jt ∧ Same it' jt ∧
      contents (m.put s l) s = (contents m s).take k ++ [v] ++ (contents m s).drop k := by
  obtain ⟨G, R⟩ := reach_rep hw h
  have hc : contents m s = vals (G s) := congrFun R.contents s
  rw [hc, length_vals] at hk
  obtain ⟨it, e0, hit, ho⟩ := seat_spec R s k
  obtain ⟨h', l', e, it', e1, e2, e3, e4, e5⟩ := insertAt_spec ((R.list s).split k) hit w v
  have R' := R.put1 e2 (by rw [List.take_append_drop] at e5; exact e5)
  obtain ⟨jt, j1, j2⟩ := at_same R' (k := k) (upd_same _ _ _) (by simp; omega) e3 (e4.trans ho)
  refine ⟨it, _, it', jt, e0, e1, j1, j2, ?_⟩
  rw [R'.contents, hc]
  simp [seqs, upd_same, vals_take, vals_drop]

/-- C95: the iterator from `erase_at` designates the element after the erased one (or the end),
and is as good as one obtained by walking there. -/
theorem list_erase_iter (hw : StrictWeak F.less) {m : Mem α} (h : Reach F m) {s k : Nat}
    (hk : k < (contents m s).length) :
    ∃ it l x it' jt, seat m s k = some it ∧ eraseAt (m.lst s) it = some (l, x, it') ∧
      (contents m s)[k]? = some x ∧ seat (m.put s l) s k = some jt ∧ Same it' jt ∧
      contents (m.put s l) s = (contents m s).take k ++ (contents m s).drop (k + 1) := by
  obtain ⟨G, R⟩ := reach_rep hw h
  have hc : contents m s = vals (G s) := congrFun R.contents s
  rw [hc, length_vals] at hk
  obtain ⟨it, e0, hit, ho⟩ := seat_spec R s k
  have i := (R.list s).split k
  rw [drop_cons hk] at i hit
  obtain ⟨h', l', it', e1, e2, e3, e4, e5⟩ := eraseAt_spec i hit
  have R' := R.put1 (s := s) e2 (by rw [← drop_cons hk, List.take_append_drop] at e5; exact e5)
  obtain ⟨jt, j1, j2⟩ := at_same R' (k := k) (upd_same _ _ _) (by simp; omega) e3 (e4.trans ho)
  refine ⟨it, _, (G s)[k].2, it', jt, e0, e1, ?_, j1, j2, ?_⟩
  · rw [hc]; simp [vals, hk]
  · rw [R'.contents, hc]
    simp [seqs, upd_same, vals_take, vals_drop]

/-- C95: the iterator from `splice` designates the same element as before, after the spliced
ones, and is as good as one obtained by walking there. -/
theorem list_splice_iter (hw : StrictWeak F.less) {m : Mem α} (h : Reach F m) {s k t : Nat} (hst : s ≠ t)
    (hk : k ≤ (contents m s).length) :
    ∃ it h' x y it' jt, seat m s k = some it ∧ splice m.heap (m.last s) it (m.last t) = some (h', x, y, it') ∧
      it'.ref = it.ref ∧ seat ((m.put s ⟨h', x⟩).put t ⟨h', y⟩) s (k + (contents m t).length) = some jt ∧ Same it' jt := by
  obtain ⟨G, R⟩ := reach_rep hw h
  have hc : contents m s = vals (G s) := congrFun R.contents s
  have ht : contents m t = vals (G t) := congrFun R.contents t
  rw [hc, length_vals] at hk
  obtain ⟨it, e0, hit, ho⟩ := seat_spec R s k
  obtain ⟨h', x, it', e1, e2, e3, e4, e5⟩ := splice_spec ((R.list s).split k) hit (R.list t)
    (by rw [List.take_append_drop]; exact R.disj t s (Ne.symm hst))
  have R' := R.put2 hst e2 (IsList.nil _) (by simp) (by rw [List.take_append_drop] at e5; simpa using e5)
  obtain ⟨jt, j1, j2⟩ := at_same R' (s := s) (k := k + (G t).length) (by rw [upd_ne _ _ hst, upd_same]) (by simp; omega)
    e3 (e4.trans ho)
  exact ⟨it, h', x, none, it', jt, e0, e1, by rw [e3.1, hit.1], by rw [ht, length_vals]; exact j1, j2⟩

/-- C95: an iterator to a later element survives `erase_at` far enough to be dereferenced and
advanced; after advancing it is as good as one obtained by walking. -/
theorem list_later_iter (hw : StrictWeak F.less) {m : Mem α} (h : Reach F m) {s k j : Nat} (hkj : k < j)
    (hj : j < (contents m s).length) :
    ∃ it l x it' jt jt' kt kt', seat m s k = some it ∧ seat m s j = some jt ∧
      eraseAt (m.lst s) it = some (l, x, it') ∧ seat (m.put s l) s (j - 1) = some jt' ∧ jt.ref = jt'.ref ∧
      next l.heap (m.put s l).last jt = some kt ∧ seat (m.put s l) s j = some kt' ∧ Same kt kt' := by
  obtain ⟨G, R⟩ := reach_rep hw h
  have hc : contents m s = vals (G s) := congrFun R.contents s
  rw [hc, length_vals] at hj
  have hk : k < (G s).length := by omega
  obtain ⟨it, e0, hit, ho⟩ := seat_spec R s k
  obtain ⟨jt, f0, hjt, hjo⟩ := seat_spec R s j
  have i := (R.list s).split k
  rw [drop_cons hk] at i hit
  obtain ⟨h', l', it', e1, e2, e3, e4, e5⟩ := eraseAt_spec i hit
  have R' := R.put1 (s := s) e2 (by rw [← drop_cons hk, List.take_append_drop] at e5; exact e5)
  obtain ⟨jt', g0, g1, g2⟩ := seat_spec R' s (j - 1)
  rw [upd_same] at g1
  have hdr : ((G s).take k ++ (G s).drop (k + 1)).drop (j - 1) = (G s).drop j := by
    have h1 : ((G s).take k).length = k := by simp; omega
    rw [List.drop_append, h1, List.drop_of_length_le (by omega), List.drop_drop, List.nil_append]
    congr 1; omega
  have hjr : jt.ref = jt'.ref := by rw [hjt.1, g1.1, hdr]
  have i' := (R'.list s).split (j - 1)
  rw [upd_same, hdr, drop_cons hj] at i'
  obtain ⟨kt, p1, p2, p3⟩ := next_spec (obj := (m.put s ⟨h', l'⟩).last) (it := jt) i'
    (by rw [hjt.1, drop_cons hj]; rfl) hjo
  have hall : (G s).take k ++ (G s).drop (k + 1) =
      (((G s).take k ++ (G s).drop (k + 1)).take (j - 1) ++ [(G s)[j]]) ++ (G s).drop (j + 1) := by
    conv_lhs => rw [← List.take_append_drop (j - 1) ((G s).take k ++ (G s).drop (k + 1)), hdr, drop_cons hj]
    simp
  obtain ⟨kt', q1, q2⟩ := at_same R' (k := j) ((upd_same _ _ _).trans hall) (by simp; omega) p2 p3
  exact ⟨it, _, _, it', jt, jt', kt, kt', e0, f0, e1, g0, hjr, p1, q1, q2⟩

/-- C95 for `erase_range`, as far as it holds: on a non-empty list the returned iterator designates
the element after the range and can be dereferenced; advanced once, it is as good as one obtained by
walking. Missing: using it for an edit at once, which is undefined (`list_erase_range_iter`), and
the empty list (`list_erase_range_empty`). -/
theorem list_erase_range_iter_partial (hw : StrictWeak F.less) {m : Mem α} (h : Reach F m) {s k n : Nat}
    (hn : k + n ≤ (contents m s).length) (hne : contents m s ≠ []) :
    ∃ it1 it2 l it jt, seat m s k = some it1 ∧ seat m s (k + n) = some it2 ∧
      eraseRange (m.lst s) it1 it2 = some (l, ((contents m s).drop k).take n, it) ∧
      seat (m.put s l) s k = some jt ∧ it.ref = jt.ref ∧ it.home = jt.home ∧
      (k + n < (contents m s).length → ∃ kt kt', next l.heap (m.put s l).last it = some kt ∧
        seat (m.put s l) s (k + 1) = some kt' ∧ Same kt kt') := by
  obtain ⟨G, R⟩ := reach_rep hw h
  have hc : contents m s = vals (G s) := congrFun R.contents s
  have hG : G s ≠ [] := by intro hh; exact hne (by rw [hc, hh]; rfl)
  rw [hc, length_vals] at hn
  obtain ⟨it1, e1, h1, _⟩ := seat_spec R s k
  obtain ⟨it2, e2, h2, o2⟩ := seat_spec R s (k + n)
  have i := R.list s
  rw [← split3 (G s) k n] at i
  obtain ⟨h', l', e3, e4, e5⟩ := eraseRange_spec (it1 := it1) (it2 := it2) i
    (by rw [← List.drop_drop, List.take_append_drop]; exact h1) h2.1 (by
      intro hh hp
      apply hG
      rw [← split3 (G s) k n, hp, hh]; rfl)
  rw [split3] at e5
  have R' := R.put1 (s := s) e4 e5
  obtain ⟨jt, g0, g1, g2⟩ := seat_spec R' s k
  have hk : ((G s).take k).length = k := by simp; omega
  rw [upd_same, List.take_left' hk, List.drop_left' hk] at g1
  refine ⟨it1, it2, _, it2, jt, e1, e2, ?_, g0, by rw [h2.1, g1.1], by rw [o2, g2], fun hlt => ?_⟩
  · rw [hc, ← vals_drop, ← vals_take]; exact e3
  · rw [hc, length_vals] at hlt
    have i' := R'.list s
    rw [upd_same, drop_cons hlt] at i'
    obtain ⟨kt, p1, p2, p3⟩ := next_spec (obj := (m.put s ⟨h', l'⟩).last) (it := it2) i'
      (by rw [h2.1, drop_cons hlt]; rfl) o2
    obtain ⟨kt', q1, q2⟩ := at_same R' (k := k + 1) (P := (G s).take k ++ [(G s)[k + n]]) (S := (G s).drop (k + n + 1))
      (by rw [upd_same, drop_cons hlt]; simp) (by simp; omega) p2 p3
    exact ⟨kt, kt', p1, q1, q2⟩

/-! ### what is not so -/

/-- `erase_range(&l, begin(&l), end())` on an empty list dereferences the null `last`. -/
theorem list_erase_range_empty (m : Mem α) (s k : Nat) (h : m.last s = none) :
    run F m (.eraseToEnd s k) = none := by
  have hb : begin s (m.lst s) = some ⟨none, some s, none⟩ := by simp [begin, Mem.lst, h]
  have ha : advance m.heap m.last k ⟨none, some s, none⟩ = some ⟨none, some s, none⟩ := by cases k <;> rfl
  have hr : eraseRange (m.lst s) ⟨none, some s, none⟩ «end» = none := by
    simp [eraseRange, stopAt, «end», Mem.lst, h]
  simp only [run, seat, hb, ha, hr, Option.bind_eq_bind, Option.bind_some, Option.bind_none]

/-- Every insertion dereferences the result of `malloc` unchecked. -/
theorem list_alloc_failure (m : Mem α) (s k : Nat) (v : α) :
    run F m (.pushBack s none v) = none ∧ run F m (.pushFront s none v) = none ∧
    run F m (.insertAt s k none v) = none ∧ run F m (.insertEnd s none v) = none := by
  refine ⟨rfl, rfl, ?_, rfl⟩
  simp only [run, Option.bind_eq_bind]
  cases seat m s k <;> rfl

/-- `insert_at` with the iterator of `list_end()` returns one that cannot be advanced. -/
theorem list_insert_end_iter {m : Mem α} {s w : Nat} {v : α} {l : Lst α} {it : Iter}
    (h : insertAt (m.lst s) «end» (some w) v = some (l, it)) : next l.heap (m.put s l).last it = none := by
  simp only [insertAt, newEntry, Option.bind_eq_bind, Option.bind_some, Option.bind_eq_some_iff] at h
  obtain ⟨h1, _, h2⟩ := h
  rw [if_pos (.inr rfl)] at h2
  simp only [Option.some.injEq, Prod.mk.injEq] at h2
  rw [← h2.2]; rfl

/-! ### examples -/

/-- Numbers compared by their value modulo 100, cloned by adding 100. -/
def exF : Fns Nat := ⟨fun a b => a % 100 == b % 100, fun a b => decide (a % 100 < b % 100), (· + 100)⟩

theorem exF_weak : StrictWeak exF.less := by
  constructor <;> intros <;> simp_all [exF] <;> omega

/-- A history: the states after each call, if all are defined. -/
def play (F : Fns Nat) (m : Mem Nat) : List (Op Nat) → Option (Mem Nat)
  | [] => some m
  | o :: os => (run F m o).bind fun p => play F p.1 os

def exOps : List (Op Nat) :=
  [.putN 0 (fun _ => some 0) [5, 3, 8, 3], .pushFront 0 (some 9) 1, .copy 1 0 (fun k => some k), .remove 0 3,
   .splice 0 1 1, .splitOff 0 0 2 2, .reverse 0]

/-- The hypotheses above are met by reachable states with several non-empty lists. -/
example : (play exF Mem.init exOps).map (fun m => (contents m 0, contents m 1, contents m 2)) =
    some ([8, 5, 103, 108, 103, 105], [], [1, 101]) := by decide

example : (play exF Mem.init (exOps ++ [.sort 0 (fun _ => true)])).map (fun m => (contents m 0).map (· % 100)) =
    some [3, 3, 5, 5, 8, 8] := by decide

/-- Two lists in a reachable state; the allocator reuses the address of an erased node. -/
example : ∃ m, Reach exF m ∧ contents m 0 = [5, 8] ∧ contents m 1 = [7] ∧ m.last 1 = some 1 := by
  refine ⟨_, .call (.call (.call .init (o := .putN 0 (fun _ => some 0) [5, 3, 8]) (fun _ => rfl) rfl)
    (o := .remove 0 203) trivial rfl) (o := .pushBack 1 (some 1) 7) rfl rfl, rfl, rfl, rfl⟩

/-- `remove` of first, last and all elements. -/
example : (play exF Mem.init [.putN 0 (fun _ => some 0) [3, 3, 5, 3], .remove 0 103]).map (contents · 0) = some [5] ∧
    (play exF Mem.init [.putN 0 (fun _ => some 0) [3, 3], .remove 0 3]).map (contents · 0) = some [] := by decide

/-- `erase_range` returns its second argument with a `prev` that designates an erased node:
erasing through it is undefined, although the list has a further element. -/
theorem list_erase_range_iter :
    ∃ (m : Mem Nat) (it1 it2 it : Iter) (l : Lst Nat) (xs : List Nat), Reach exF m ∧ seat m 0 1 = some it1 ∧
      seat m 0 2 = some it2 ∧ eraseRange (m.lst 0) it1 it2 = some (l, xs, it) ∧ it.ref.isSome ∧
      contents (m.put 0 l) 0 = [5, 8] ∧ eraseAt l it = none := by
  refine ⟨⟨[some ⟨5, some 1⟩, some ⟨3, some 2⟩, some ⟨8, some 0⟩], upd (fun _ => none) 0 (some 2)⟩,
    ⟨some 1, some 0, some 0⟩, ⟨some 2, some 0, some 1⟩, ⟨some 2, some 0, some 1⟩,
    ⟨[some ⟨5, some 2⟩, none, some ⟨8, some 0⟩], some 2⟩, [3], ?_, rfl, rfl, rfl, rfl, rfl, rfl⟩
  exact .call (o := .putN 0 (fun _ => some 0) [5, 3, 8]) (r := ⟨[], 0, true⟩) .init (fun _ => rfl) rfl

end Verif.Clist
