import Verif.PQueue.Spec
import Mathlib.Data.List.Perm.Basic
/- Heap lemmas for `pqueue`. Indices are 1-based as in the code. -/
namespace Verif.PQueue
open Verif.PQueue.Spec
variable {α : Type}

/-- the 1-based slots `p` (parent) and `i` are in order. -/
def Ok (less : α → α → Bool) (l : List α) (p i : Nat) : Prop :=
  ∀ x y, l[p - 1]? = some x → l[i - 1]? = some y → less x y = false

/-- heap order for all parents `≥ k`. -/
def HeapFrom (less : α → α → Bool) (l : List α) (k : Nat) : Prop :=
  ∀ i, 1 ≤ i / 2 → k ≤ i / 2 → Ok less l (i / 2) i

theorem set_set_perm (l : List α) (i j : Nat) (x y : α) (hi : l[i]? = some x) (hj : l[j]? = some y) :
    ((l.set i y).set j x).Perm l := by
  classical
  rw [List.perm_iff_count]
  intro a
  obtain ⟨hi', rfl⟩ := List.getElem?_eq_some_iff.1 hi
  obtain ⟨hj', rfl⟩ := List.getElem?_eq_some_iff.1 hj
  have e2 : l.count l[i] ≥ 1 := List.count_pos_iff.2 (List.getElem_mem _)
  by_cases hij : i = j
  · subst hij; simp
  rw [List.count_set (by simpa using hj'), List.count_set hi', List.getElem_set_ne hij]
  have e1 : l.count l[j] ≥ 1 := List.count_pos_iff.2 (List.getElem_mem _)
  by_cases h1 : l[i] = a <;> by_cases h2 : l[j] = a <;>
    simp only [h1, h2, beq_self_eq_true, if_true, beq_iff_eq, if_false, Nat.add_zero, Nat.sub_zero] <;>
    (try rw [h1] at e2) <;> omega

theorem siftDownF_spec {less : α → α → Bool} (hw : StrictWeak less) (k : Nat) :
    ∀ (d r : Nat) (l : List α), l.length + 1 - r ≤ d → 1 ≤ r → k ≤ r →
      (∀ i, 1 ≤ i / 2 → k ≤ i / 2 → i / 2 ≠ r → Ok less l (i / 2) i) →
      (∀ i, i / 2 = r → k ≤ r / 2 → 1 ≤ r / 2 → Ok less l (r / 2) i) →
      ∃ l', siftDownF less l.length (d + 1) r l = some l' ∧ l'.Perm l ∧ HeapFrom less l' k := by
  intro d
  induction d with
  | zero =>
    intro r l hd hr hk hA hB
    refine ⟨l, ?_, List.Perm.refl _, ?_⟩
    · rw [siftDownF, if_neg (by omega), if_neg (by omega)]
    · intro i hi hki
      by_cases hir : i / 2 = r
      · intro x y hx hy
        have := (List.getElem?_eq_some_iff.1 hy).1
        omega
      · exact hA i hi hki hir
  | succ d ih =>
    intro r l hd hr hk hA hB
    rw [siftDownF]
    rw [if_neg (by omega)]
    by_cases h : 2 * r ≤ l.length
    · rw [if_pos h]
      have ha : l[2 * r - 1]? = some l[2 * r - 1] := List.getElem?_eq_getElem (by omega)
      have hb : l[2 * r + (if 2 * r < l.length then 1 else 0) - 1]? =
          some (l[2 * r + (if 2 * r < l.length then 1 else 0) - 1]'(by split <;> omega)) :=
        List.getElem?_eq_getElem (by split <;> omega)
      generalize hae : l[2 * r - 1] = a at ha
      generalize hbe : l[2 * r + (if 2 * r < l.length then 1 else 0) - 1]'(by split <;> omega) = b at hb
      rw [ha, hb]
      dsimp only
      -- the chosen child is in range and not below its sibling
      have hcr : 2 * r + (if less a b = true then 1 else 0) ≤ l.length := by
        split
        · rename_i hlt
          by_cases h2 : 2 * r < l.length
          · omega
          · rw [if_neg h2] at hb
            have : a = b := by rw [Nat.add_zero] at hb; rw [ha] at hb; simpa using hb
            subst this
            rw [hw.irrefl] at hlt; simp at hlt
        · omega
      have hsib : ∀ i y z, i / 2 = r → l[2 * r + (if less a b = true then 1 else 0) - 1]? = some y →
          l[i - 1]? = some z → less y z = false := by
        intro i y z hi hy hz
        have hil := (List.getElem?_eq_some_iff.1 hz).1
        by_cases hlt : less a b = true
        · rw [if_pos hlt] at hy hcr
          rw [if_pos (by omega)] at hb
          rw [hb] at hy
          cases hy
          rcases (show i = 2 * r ∨ i = 2 * r + 1 by omega) with rfl | rfl
          · rw [ha] at hz; cases hz; exact hw.asymm _ _ hlt
          · rw [hb] at hz; cases hz; exact hw.irrefl _
        · rw [if_neg hlt] at hy
          rw [Nat.add_zero, ha] at hy
          cases hy
          rcases (show i = 2 * r ∨ i = 2 * r + 1 by omega) with rfl | rfl
          · rw [ha] at hz; cases hz; exact hw.irrefl _
          · rw [if_pos (by omega), hz] at hb; cases hb; simpa using hlt
      have hc2 : (2 * r + (if less a b = true then 1 else 0)) / 2 = r := by split <;> omega
      generalize 2 * r + (if less a b = true then 1 else 0) = c at *
      have hx : l[r - 1]? = some l[r - 1] := List.getElem?_eq_getElem (by omega)
      have hy : l[c - 1]? = some l[c - 1] := List.getElem?_eq_getElem (by omega)
      generalize l[r - 1] = x at hx
      generalize l[c - 1] = y at hy
      rw [hx, hy]
      dsimp only
      have hcr' : r < c := by omega
      by_cases hxy : less x y = true
      · rw [if_pos hxy]
        have hlen : ((l.set (r - 1) y).set (c - 1) x).length = l.length := by simp
        have hr2 : ((l.set (r - 1) y).set (c - 1) x)[r - 1]? = some y := by
          rw [List.getElem?_set_ne (by omega), List.getElem?_set_self (by omega)]
        have hc2' : ((l.set (r - 1) y).set (c - 1) x)[c - 1]? = some x := by
          rw [List.getElem?_set_self (by simp; omega)]
        have ho : ∀ j, j ≠ r - 1 → j ≠ c - 1 → ((l.set (r - 1) y).set (c - 1) x)[j]? = l[j]? := by
          intro j h1 h2
          rw [List.getElem?_set_ne (by omega), List.getElem?_set_ne (by omega)]
        have hp := set_set_perm l (r - 1) (c - 1) x y hx hy
        generalize (l.set (r - 1) y).set (c - 1) x = l2 at *
        have := ih c l2 (by omega) (by omega) (by omega) ?_ ?_
        · obtain ⟨l', e, p, hh⟩ := this
          rw [hlen] at e
          exact ⟨l', e, p.trans hp, hh⟩
        · intro i hi hki hic x' y' hx' hy'
          by_cases hir : i / 2 = r
          · rw [hir, hr2] at hx'
            cases hx'
            by_cases hi' : i = c
            · subst hi'; rw [hc2'] at hy'; cases hy'; exact hw.asymm _ _ hxy
            · rw [ho _ (by omega) (by omega)] at hy'
              exact hsib i y y' hir hy hy'
          · by_cases hi' : i = r
            · subst hi'
              rw [hr2] at hy'; cases hy'
              rw [ho _ (by omega) (by omega)] at hx'
              exact hB c hc2 hki hi x' y hx' hy
            · rw [ho _ (by omega) (by omega)] at hx'
              rw [ho _ (by omega) (by omega)] at hy'
              exact hA i hi hki hir x' y' hx' hy'
        · intro i hi hkc hc1 x' y' hx' hy'
          rw [hc2, hr2] at hx'
          cases hx'
          rw [ho _ (by omega) (by omega)] at hy'
          exact hA i (by omega) (by omega) (by omega) y y' (by rw [hi]; exact hy) hy'
      · rw [if_neg hxy]
        refine ⟨l, rfl, List.Perm.refl _, ?_⟩
        intro i hi hki
        by_cases hir : i / 2 = r
        · intro x' y' hx' hy'
          rw [hir, hx] at hx'
          cases hx'
          exact hw.negtrans x y y' (by simpa using hxy) (hsib i y y' hir hy hy')
        · exact hA i hi hki hir
    · rw [if_neg h]
      refine ⟨l, rfl, List.Perm.refl _, ?_⟩
      intro i hi hki
      by_cases hir : i / 2 = r
      · intro x y hx hy
        have := (List.getElem?_eq_some_iff.1 hy).1
        omega
      · exact hA i hi hki hir

/-- on arbitrary contents `siftDown` is defined and permutes. -/
theorem siftDownF_perm {less : α → α → Bool} (hw : StrictWeak less) :
    ∀ (d r : Nat) (l : List α), l.length + 1 - r ≤ d → 1 ≤ r →
      ∃ l', siftDownF less l.length (d + 1) r l = some l' ∧ l'.Perm l := by
  intro d
  induction d with
  | zero =>
    intro r l hd hr
    refine ⟨l, ?_, List.Perm.refl _⟩
    rw [siftDownF, if_neg (by omega), if_neg (by omega)]
  | succ d ih =>
    intro r l hd hr
    rw [siftDownF]
    rw [if_neg (by omega)]
    by_cases h : 2 * r ≤ l.length
    · rw [if_pos h]
      have ha : l[2 * r - 1]? = some l[2 * r - 1] := List.getElem?_eq_getElem (by omega)
      have hb : l[2 * r + (if 2 * r < l.length then 1 else 0) - 1]? =
          some (l[2 * r + (if 2 * r < l.length then 1 else 0) - 1]'(by split <;> omega)) :=
        List.getElem?_eq_getElem (by split <;> omega)
      generalize hae : l[2 * r - 1] = a at ha
      generalize hbe : l[2 * r + (if 2 * r < l.length then 1 else 0) - 1]'(by split <;> omega) = b at hb
      rw [ha, hb]
      dsimp only
      have hcr : 2 * r + (if less a b = true then 1 else 0) ≤ l.length := by
        split
        · rename_i hlt
          by_cases h2 : 2 * r < l.length
          · omega
          · rw [if_neg h2] at hb
            have : a = b := by rw [Nat.add_zero] at hb; rw [ha] at hb; simpa using hb
            subst this
            rw [hw.irrefl] at hlt; simp at hlt
        · omega
      have hc2 : (2 * r + (if less a b = true then 1 else 0)) / 2 = r := by split <;> omega
      generalize 2 * r + (if less a b = true then 1 else 0) = c at *
      have hx : l[r - 1]? = some l[r - 1] := List.getElem?_eq_getElem (by omega)
      have hy : l[c - 1]? = some l[c - 1] := List.getElem?_eq_getElem (by omega)
      generalize l[r - 1] = x at hx
      generalize l[c - 1] = y at hy
      rw [hx, hy]
      dsimp only
      split
      · have hp := set_set_perm l (r - 1) (c - 1) x y hx hy
        obtain ⟨l', e, p⟩ := ih c ((l.set (r - 1) y).set (c - 1) x) (by simp; omega) (by omega)
        simp only [List.length_set] at e
        exact ⟨l', e, p.trans hp⟩
      · exact ⟨l, rfl, List.Perm.refl _⟩
    · rw [if_neg h]
      exact ⟨l, rfl, List.Perm.refl _⟩

theorem siftDown_spec {less : α → α → Bool} (hw : StrictWeak less) (k r : Nat) (l : List α)
    (hr : 1 ≤ r) (hk : k ≤ r)
    (hA : ∀ i, 1 ≤ i / 2 → k ≤ i / 2 → i / 2 ≠ r → Ok less l (i / 2) i)
    (hB : ∀ i, i / 2 = r → k ≤ r / 2 → 1 ≤ r / 2 → Ok less l (r / 2) i) :
    ∃ l', siftDown less l.length r l = some l' ∧ l'.Perm l ∧ HeapFrom less l' k :=
  siftDownF_spec hw k l.length r l (by omega) hr hk hA hB

theorem siftDown_perm {less : α → α → Bool} (hw : StrictWeak less) (r : Nat) (l : List α) (hr : 1 ≤ r) :
    ∃ l', siftDown less l.length r l = some l' ∧ l'.Perm l :=
  siftDownF_perm hw l.length r l (by omega) hr

theorem heapifyFrom_spec {less : α → α → Bool} (hw : StrictWeak less) :
    ∀ (k : Nat) (l : List α), HeapFrom less l (k + 1) →
      ∃ l', heapifyFrom less l.length k l = some l' ∧ l'.Perm l ∧ HeapFrom less l' 1 := by
  intro k
  induction k with
  | zero => intro l h; exact ⟨l, rfl, List.Perm.refl _, h⟩
  | succ k ih =>
    intro l h
    obtain ⟨l1, e1, p1, h1⟩ := siftDown_spec hw (k + 1) (k + 1) l (by omega) (by omega)
      (fun i hi hk hne => h i hi (by omega)) (fun i _ hk _ => by omega)
    obtain ⟨l2, e2, p2, h2⟩ := ih l1 h1
    rw [p1.length_eq] at e2
    refine ⟨l2, ?_, p2.trans p1, h2⟩
    simp only [heapifyFrom, e1, Option.bind_eq_bind, Option.bind_some, e2]

theorem makeHeap_spec {less : α → α → Bool} (hw : StrictWeak less) (q : PQ α) :
    ∃ l', makeHeap less q = some { q with elems := l' } ∧ l'.Perm q.elems ∧ HeapFrom less l' 1 := by
  obtain ⟨l', e, p, h⟩ := heapifyFrom_spec hw (q.elems.length / 2) q.elems (by
    intro i hi hk x y _ hy
    have := (List.getElem?_eq_some_iff.1 hy).1
    omega)
  exact ⟨l', by simp only [makeHeap, e, Option.bind_eq_bind, Option.bind_some], p, h⟩

/-- heap order for the whole array, with the value to be placed at the hole `c`. -/
theorem siftUpF_perm {less : α → α → Bool} (value : α) :
    ∀ (fuel c : Nat) (l : List α), c ≤ fuel → 1 ≤ c → c ≤ l.length →
      ∃ l', siftUpF less value fuel c l = some l' ∧ l'.Perm (l.set (c - 1) value) := by
  intro fuel
  induction fuel with
  | zero => intros; omega
  | succ fuel ih =>
    intro c l h0 h1 hc
    rw [siftUpF]
    split
    · rename_i h
      have hp : l[c / 2 - 1]? = some l[c / 2 - 1] := List.getElem?_eq_getElem (by omega)
      generalize l[c / 2 - 1] = p at hp
      rw [hp]
      dsimp only
      split
      · obtain ⟨l', e, q⟩ := ih (c / 2) (l.set (c - 1) p) (by omega) (by omega) (by simp; omega)
        refine ⟨l', e, q.trans ?_⟩
        have := set_set_perm (l.set (c - 1) value) (c - 1) (c / 2 - 1) value p
          (List.getElem?_set_self (by omega)) (by rw [List.getElem?_set_ne (by omega)]; exact hp)
        simpa using this
      · exact ⟨_, rfl, List.Perm.refl _⟩
    · exact ⟨_, rfl, List.Perm.refl _⟩

theorem siftUpF_heap {less : α → α → Bool} (hw : StrictWeak less) (value : α) :
    ∀ (fuel c : Nat) (l l' : List α), c ≤ fuel → 1 ≤ c → c ≤ l.length →
      -- order everywhere except around the hole
      (∀ i, 1 ≤ i / 2 → i ≠ c → i / 2 ≠ c → Ok less l (i / 2) i) →
      -- children of the hole are below its parent
      (∀ i, i / 2 = c → 1 ≤ c / 2 → Ok less l (c / 2) i) →
      -- children of the hole are below the value
      (∀ i y, i / 2 = c → l[i - 1]? = some y → less value y = false) →
      siftUpF less value fuel c l = some l' → HeapFrom less l' 1 := by
  intro fuel
  induction fuel with
  | zero => intros; omega
  | succ fuel ih =>
    intro c l l' h0 h1 hc hA hB hC e
    have hset : ∀ p, l[c / 2 - 1]? = some p → (1 < c → less p value = false) →
        HeapFrom less (l.set (c - 1) value) 1 := by
      intro p hp hpv i hi _ x y hx hy
      by_cases hic : i = c
      · subst hic
        rw [List.getElem?_set_self (by omega)] at hy
        rw [List.getElem?_set_ne (by omega), hp] at hx
        cases hx; cases hy
        exact hpv (by omega)
      · rw [List.getElem?_set_ne (by omega)] at hy
        by_cases hi2 : i / 2 = c
        · rw [hi2, List.getElem?_set_self (by omega)] at hx
          cases hx
          exact hC i y hi2 hy
        · rw [List.getElem?_set_ne (by omega)] at hx
          exact hA i hi hic hi2 x y hx hy
    rw [siftUpF] at e
    split at e
    · rename_i h
      have hp : l[c / 2 - 1]? = some l[c / 2 - 1] := List.getElem?_eq_getElem (by omega)
      generalize l[c / 2 - 1] = p at hp
      rw [hp] at e
      dsimp only at e
      split at e
      · rename_i hlt
        refine ih (c / 2) (l.set (c - 1) p) l' (by omega) (by omega) (by simp; omega) ?_ ?_ ?_ e
        · intro i hi hne hne2 x y hx hy
          by_cases hic : i = c
          · omega
          · rw [List.getElem?_set_ne (by omega)] at hy
            by_cases hi2 : i / 2 = c
            · rw [hi2, List.getElem?_set_self (by omega)] at hx
              cases hx
              exact hB i hi2 (by omega) p y hp hy
            · rw [List.getElem?_set_ne (by omega)] at hx
              exact hA i hi hic hi2 x y hx hy
        · intro i hi hcc x y hx hy
          rw [List.getElem?_set_ne (by omega)] at hx
          have hpp : less x p = false := hA (c / 2) (by omega) (by omega) (by omega) x p hx hp
          by_cases hic : i = c
          · subst hic
            rw [List.getElem?_set_self (by omega)] at hy
            cases hy; exact hpp
          · rw [List.getElem?_set_ne (by omega)] at hy
            have := hA i (by omega) hic (by omega) p y (by rw [hi]; exact hp) hy
            exact hw.negtrans _ _ _ hpp this
        · intro i y hi hy
          by_cases hic : i = c
          · subst hic
            rw [List.getElem?_set_self (by omega)] at hy
            cases hy; exact hw.asymm _ _ hlt
          · rw [List.getElem?_set_ne (by omega)] at hy
            have := hA i (by omega) hic (by omega) p y (by rw [hi]; exact hp) hy
            exact hw.negtrans _ _ _ (hw.asymm _ _ hlt) this
      · rename_i hlt
        cases e
        exact hset p hp (fun _ => by simpa using hlt)
    · rename_i h
      cases e
      exact hset l[0] (by
        have : c = 1 := by omega
        subst this; exact List.getElem?_eq_getElem (by omega)) (by omega)

theorem heap_top_max {less : α → α → Bool} (hw : StrictWeak less) {l : List α} {x : α}
    (h : HeapFrom less l 1) (hx : l[0]? = some x) : ∀ y ∈ l, less x y = false := by
  have key : ∀ i y, 1 ≤ i → l[i - 1]? = some y → less x y = false := by
    intro i
    induction i using Nat.strongRecOn with
    | _ i ih =>
      intro y hi hy
      by_cases h1 : i = 1
      · subst h1; rw [hx] at hy; cases hy; exact hw.irrefl _
      · have hb := (List.getElem?_eq_some_iff.1 hy).1
        have hp : l[i / 2 - 1]? = some l[i / 2 - 1] := List.getElem?_eq_getElem (by omega)
        exact hw.negtrans _ _ _ (ih (i / 2) (by omega) _ (by omega) hp)
          (h i (by omega) (by omega) _ _ hp hy)
  intro y hy
  obtain ⟨i, hi, rfl⟩ := List.mem_iff_getElem.1 hy
  exact key (i + 1) _ (by omega) (List.getElem?_eq_getElem hi)

/-- The array handed to the sift of `erase_at`. -/
theorem erased_perm (l : List α) (idx : Nat) (x y : α) (hx : l[idx]? = some x)
    (hy : l[l.length - 1]? = some y) : (x :: (l.set idx y).take (l.length - 1)).Perm l := by
  have hi := (List.getElem?_eq_some_iff.1 hx).1
  have hp := set_set_perm l idx (l.length - 1) x y hx hy
  refine List.Perm.trans ?_ hp
  have : (l.set idx y).set (l.length - 1) x = (l.set idx y).take (l.length - 1) ++ [x] := by
    rw [List.set_eq_take_append_cons_drop, if_pos (by simp; omega), List.drop_of_length_le (by simp; omega)]
  rw [this]
  exact (List.perm_append_comm (l₁ := [x]))

theorem eraseAt_spec {less : α → α → Bool} (hw : StrictWeak less) (q : PQ α) (idx : Nat)
    (hi : idx < q.elems.length) :
    ∃ l', eraseAt less q idx = some { q with elems := l', dropped := q.dropped ++ [q.elems[idx]] } ∧
      (q.elems[idx] :: l').Perm q.elems ∧
      (HeapFrom less q.elems 1 →
        (idx = 0 ∨ idx + 1 = q.elems.length ∨
          ∀ p y, q.elems[(idx + 1) / 2 - 1]? = some p → q.elems[q.elems.length - 1]? = some y →
            less p y = false) →
        HeapFrom less l' 1) := by
  have hx : q.elems[idx]? = some q.elems[idx] := List.getElem?_eq_getElem hi
  have hy : q.elems[q.elems.length - 1]? = some q.elems[q.elems.length - 1] :=
    List.getElem?_eq_getElem (by omega)
  have hperm := erased_perm q.elems idx _ _ hx hy
  generalize q.elems[idx] = x at *
  generalize q.elems[q.elems.length - 1] = y at *
  have hlen : ((q.elems.set idx y).take (q.elems.length - 1)).length = q.elems.length - 1 := by simp
  have hget : ∀ j z, ((q.elems.set idx y).take (q.elems.length - 1))[j]? = some z →
      j < q.elems.length - 1 ∧ (if j = idx then z = y else q.elems[j]? = some z) := by
    intro j z hz
    have hj := (List.getElem?_eq_some_iff.1 hz).1
    rw [hlen] at hj
    refine ⟨hj, ?_⟩
    rw [List.getElem?_take_of_lt hj] at hz
    split
    · rename_i h; subst h
      rw [List.getElem?_set_self (by omega)] at hz; cases hz; rfl
    · rw [List.getElem?_set_ne (by omega)] at hz; exact hz
  generalize hl : (q.elems.set idx y).take (q.elems.length - 1) = l1 at *
  have hdef : ∀ l', siftDown less l1.length (idx + 1) l1 = some l' →
      eraseAt less q idx = some { q with elems := l', dropped := q.dropped ++ [x] } := by
    intro l' e
    rw [hlen] at e
    simp only [eraseAt, hx, hy, hl, e, Option.bind_eq_bind, Option.bind_some]
  by_cases hcond : HeapFrom less q.elems 1 ∧ (idx = 0 ∨ idx + 1 = q.elems.length ∨
      ∀ p y', q.elems[(idx + 1) / 2 - 1]? = some p → some y = some y' → less p y' = false)
  · obtain ⟨hh, hc⟩ := hcond
    obtain ⟨l', e, p, h'⟩ := siftDown_spec hw 1 (idx + 1) l1 (by omega) (by omega) (by
      intro i h1 _ hne u v hu hv
      obtain ⟨hu1, hu2⟩ := hget _ _ hu
      obtain ⟨hv1, hv2⟩ := hget _ _ hv
      rw [if_neg (by omega)] at hu2
      by_cases hii : i - 1 = idx
      · rw [if_pos hii] at hv2
        subst hv2
        rcases hc with hc | hc | hc
        · omega
        · omega
        · exact hc u v (by rw [show idx + 1 = i by omega]; exact hu2) rfl
      · rw [if_neg hii] at hv2
        exact hh i h1 (by omega) u v hu2 hv2) (by
      intro i hir _ h1 u v hu hv
      obtain ⟨hu1, hu2⟩ := hget _ _ hu
      obtain ⟨hv1, hv2⟩ := hget _ _ hv
      rw [if_neg (by omega)] at hu2 hv2
      have a1 := hh (idx + 1) h1 (by omega) u x hu2 hx
      have a2 := hh i (by omega) (by omega) x v (by rw [hir]; exact hx) hv2
      exact hw.negtrans _ _ _ a1 a2)
    exact ⟨l', hdef l' e, (p.cons x).trans hperm, fun _ _ => h'⟩
  · obtain ⟨l', e, p⟩ := siftDown_perm hw (idx + 1) l1 (by omega)
    refine ⟨l', hdef l' e, (p.cons x).trans hperm, fun h1 h2 => absurd ⟨h1, by rw [hy] at h2; exact h2⟩ hcond⟩

theorem reserve_spec (ok : Bool) (q : PQ α) (cap : Nat) (hc : 0 < cap) :
    ∃ b, reserve ok q cap = some b ∧ b.1.elems = q.elems ∧ b.1.dropped = q.dropped ∧
      (ok = true → q.elems.length < cap → cap ≤ b.1.cap ∧ b.2 = true) ∧
      (q.elems.length ≤ q.cap → q.elems.length ≤ b.1.cap ∨ cap < q.elems.length) := by
  unfold reserve
  split
  · rename_i h
    exact ⟨_, rfl, rfl, rfl, fun _ _ => ⟨h.2, rfl⟩, fun h => .inl h⟩
  · rename_i h
    rw [if_neg (by omega)]
    cases ok
    · exact ⟨_, rfl, rfl, rfl, by simp, fun h => .inl h⟩
    · exact ⟨_, rfl, rfl, rfl, fun _ _ => ⟨Nat.le_refl _, rfl⟩, fun _ => by dsimp only; omega⟩

theorem push_spec {less : α → α → Bool} (hw : StrictWeak less) (q : PQ α) (v : α)
    (hcap : q.elems.length ≤ q.cap) :
    ∃ q', push less true q v = some q' ∧ q'.elems.Perm (v :: q.elems) ∧ q'.dropped = q.dropped ∧
      q'.elems.length ≤ q'.cap ∧ (HeapFrom less q.elems 1 → HeapFrom less q'.elems 1) := by
  obtain ⟨q1, e1, h1, h2, h3⟩ : ∃ q1 : PQ α × Bool, grow true q = some q1 ∧
      q1.1.elems = q.elems ∧ q1.1.dropped = q.dropped ∧ q.elems.length < q1.1.cap := by
    unfold grow
    by_cases h : q.elems.length = q.cap
    · rw [if_pos h]
      obtain ⟨b, e, a1, a2, a3, _⟩ := reserve_spec true q (q.elems.length * 3 / 2 + 4) (by omega)
      exact ⟨b, e, a1, a2, by have := (a3 rfl (by omega)).1; omega⟩
    · rw [if_neg h]; exact ⟨_, rfl, rfl, rfl, by dsimp only; omega⟩
  obtain ⟨l', e, p⟩ := siftUpF_perm (less := less) v (q.elems.length + 1) (q.elems.length + 1) (q.elems ++ [v]) (Nat.le_refl _) (by omega) (by simp)
  have hs : (q.elems ++ [v]).set q.elems.length v = q.elems ++ [v] := by simp
  rw [Nat.add_sub_cancel, hs] at p
  refine ⟨{ q1.1 with elems := l' }, ?_, ?_, h2, ?_, ?_⟩
  · simp only [push, e1, Option.bind_eq_bind, Option.bind_some, h1, if_pos h3, siftUp, e]
  · exact p.trans (List.perm_append_comm (l₂ := [v]))
  · have := p.length_eq; simp at this; dsimp only; omega
  · intro hh
    refine siftUpF_heap hw v (q.elems.length + 1) (q.elems.length + 1) (q.elems ++ [v]) l' (Nat.le_refl _) (by omega) (by simp) ?_ ?_ ?_ e
    · intro i hi hne hne2 x y hx hy
      have hb := (List.getElem?_eq_some_iff.1 hy).1
      simp at hb
      rw [List.getElem?_append_left (by omega)] at hx hy
      exact hh i hi hi x y hx hy
    · intro i hi _ x y _ hy
      have hb := (List.getElem?_eq_some_iff.1 hy).1
      simp at hb; omega
    · intro i y hi hy
      have hb := (List.getElem?_eq_some_iff.1 hy).1
      simp at hb; omega

end Verif.PQueue
