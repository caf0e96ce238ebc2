import Verif.Vec.Advance
/-
Searching a part of a vector or stack: `_find_in` and `_find` (vec.h:361-373 and 250-253; stack.h:250-264, which
has the same text), and `_eq` of a stack (stack.h:266-273).

The iterators are those of Advance.lean: offsets from `data`, NULL is `none`. The first iterator of a search comes
from `_begin` and `_next`; the second one may also be the iterator `{0}` of `_end`.
-/
namespace Verif.Vec
open Spec
variable {α : Type}

/-- vec.h:227-228, stack.h:225-226 `_end`: `{0}`. -/
def pend : PIter := ⟨none, 0⟩

/-- vec.h:66 `_it2_ptr`, stack.h:253 `i2.ref ? i2.ref : i1.end`; the `end` of an iterator into no block is NULL. -/
def stopPtr (v : Vec α) (i1 i2 : PIter) : Option Int :=
  match i2.ref with
  | some r => some r
  | none => if v.data.isSome then some i1.fin else none

/-- The loop of vec.h:366-372, stack.h:254-260 for at most `fuel` rounds. Reading through a NULL pointer or
outside the live elements is undefined. -/
def findLoop (v : Vec α) (eq : α → α → Bool) (raw : α) (stop : Option Int) (i2 : PIter) : Nat → PIter → Option PIter
  | 0, _ => none
  | fuel + 1, i1 =>
    if i1.ref = stop then some { i2 with ref := none }
    else (pderef v i1).bind fun x =>
      if eq raw x then some i1
      else findLoop v eq raw stop i2 fuel { i1 with ref := i1.ref.map (· + 1) }

/-- vec.h:362-373, stack.h:251-261 `_find_in`. -/
def findIn (v : Vec α) (eq : α → α → Bool) (raw : α) (i1 i2 : PIter) (fuel : Nat) : Option PIter :=
  findLoop v eq raw (stopPtr v i1 i2) i2 fuel i1

/-- vec.h:251-253, stack.h:263-264 `_find`. -/
def findIt (v : Vec α) (eq : α → α → Bool) (raw : α) (fuel : Nat) : Option PIter :=
  findIn v eq raw (pbegin v) pend fuel

/-- What a search of the places `i`, …, `j - 1` of `l` has to answer: an iterator at the first match, which can be
advanced to the end of the container, and the end iterator if there is none. -/
def FoundIn (l : List α) (p : α → Bool) (i j : Nat) (it : PIter) : Prop :=
  match ((l.take j).drop i).findIdx? p with
  | some k => it = place l.length (i + k)
  | none => it.ref = none

theorem findLoop_spec {v : Vec α} {l : List α} (h : Rep v l) (eq : α → α → Bool) (raw : α) (i2 : PIter) {j : Nat} (hj : j ≤ l.length) :
    ∀ (k i fuel : Nat), i + k = j → k < fuel → l ≠ [] →
      ∃ it, findLoop v eq raw (some (j : Int)) i2 fuel ⟨some (i : Int), l.length⟩ = some it ∧ FoundIn l (eq raw) i j it := by
  intro k
  induction k with
  | zero =>
    intro i fuel hi hf _
    obtain ⟨f, rfl⟩ : ∃ f, fuel = f + 1 := ⟨fuel - 1, by omega⟩
    have : i = j := by omega
    subst this
    refine ⟨_, by rw [findLoop, if_pos rfl], ?_⟩
    have : (l.take i).drop i = [] := by apply List.drop_of_length_le; simp; omega
    simp [FoundIn, this]
  | succ k ih =>
    intro i fuel hi hf hne
    obtain ⟨f, rfl⟩ : ∃ f, fuel = f + 1 := ⟨fuel - 1, by omega⟩
    have hil : i < l.length := by omega
    have hd := rep_deref h hne i
    have hpl : place l.length i = ⟨some (i : Int), l.length⟩ := by rw [place, if_pos hil]
    rw [hpl, List.getElem?_eq_getElem hil] at hd
    have hsplit : (l.take j).drop i = l[i] :: (l.take j).drop (i + 1) := by
      rw [List.drop_eq_getElem_cons (by simp; omega)]; simp
    rw [findLoop, if_neg (by simp; omega), hd, Option.bind_some]
    by_cases he : eq raw l[i] = true
    · rw [if_pos he]
      refine ⟨_, rfl, ?_⟩
      rw [FoundIn, hsplit, List.findIdx?_cons, if_pos he]
      simpa using hpl.symm
    · rw [if_neg he]
      obtain ⟨it, e1, e2⟩ := ih (i + 1) f (by omega) (by omega) hne
      refine ⟨it, by simpa using e1, ?_⟩
      rw [FoundIn, hsplit, List.findIdx?_cons, if_neg he]
      unfold FoundIn at e2
      cases hx : ((l.take j).drop (i + 1)).findIdx? (eq raw) with
      | none => rw [hx] at e2; simpa using e2
      | some m =>
        rw [hx] at e2
        simp only [Option.map_some]
        rw [e2]; congr 1; omega

theorem rep_find_in {v : Vec α} {l : List α} (h : Rep v l) (eq : α → α → Bool) (raw : α) {i j : Nat} (hij : i ≤ j) (hj : j ≤ l.length)
    (hi : i < l.length) {fuel : Nat} (hf : l.length < fuel) :
    ∃ i1 i2 it, walk pnext i (pbegin v) = some i1 ∧ walk pnext j (pbegin v) = some i2 ∧
      findIn v eq raw i1 i2 fuel = some it ∧ FoundIn l (eq raw) i j it := by
  have hne : l ≠ [] := by rintro rfl; simp at hi
  rw [rep_begin h hne, walk_place i 0 (by omega), walk_place j 0 (by omega)]
  simp only [Nat.zero_add, Option.some.injEq]
  refine ⟨place l.length i, place l.length j, ?_⟩
  have hd : v.data.isSome := by
    cases hd : v.data with
    | none => exact absurd (h.null hd).2 hne
    | some b => rfl
  have hs : stopPtr v (place l.length i) (place l.length j) = some (j : Int) := by
    rw [stopPtr]
    by_cases hjl : j < l.length
    · simp [place, hjl]
    · have : j = l.length := by omega
      subst this
      simp [place, hd, hi]
  obtain ⟨it, e1, e2⟩ := findLoop_spec h eq raw (place l.length j) hj (j - i) i fuel (by omega) (by omega) hne
  have hpl : place l.length i = ⟨some (i : Int), l.length⟩ := by rw [place, if_pos hi]
  exact ⟨it, rfl, rfl, by rw [findIn, hs, hpl]; exact e1, e2⟩

theorem rep_find {v : Vec α} {l : List α} (h : Rep v l) (eq : α → α → Bool) (raw : α) {fuel : Nat} (hf : l.length < fuel) :
    ∃ it, findIt v eq raw fuel = some it ∧ FoundIn l (eq raw) 0 l.length it := by
  obtain ⟨f, rfl⟩ : ∃ f, fuel = f + 1 := ⟨fuel - 1, by omega⟩
  cases hd : v.data with
  | none =>
    have hl := (h.null hd).2
    subst hl
    refine ⟨⟨none, 0⟩, ?_, by simp [FoundIn]⟩
    simp [findIt, findIn, pbegin, hd, stopPtr, pend, findLoop]
  | some b =>
    by_cases hne : l = []
    · subst hne
      refine ⟨⟨none, 0⟩, ?_, by simp [FoundIn]⟩
      have hsz := h.size
      simp [findIt, findIn, pbegin, hd, stopPtr, pend, findLoop, hsz]
    · obtain ⟨it, e1, e2⟩ := findLoop_spec h eq raw pend (Nat.le_refl l.length) l.length 0 (f + 1) (by omega) hf hne
      have hp := List.length_pos_iff.2 hne
      refine ⟨it, ?_, e2⟩
      rw [findIt, findIn, rep_begin h hne]
      simpa [stopPtr, pend, hd, place, hp] using e1

theorem rep_find_in_past {v : Vec α} {l : List α} (h : Rep v l) (hne : l ≠ []) (eq : α → α → Bool) (raw : α) (fuel : Nat) :
    ∃ i1, walk pnext l.length (pbegin v) = some i1 ∧ i1.ref = none ∧ findIn v eq raw i1 pend fuel = none := by
  rw [rep_begin h hne, walk_place l.length 0 (by omega)]
  refine ⟨_, rfl, by simp [place], ?_⟩
  have hd : v.data.isSome := by
    cases hd : v.data with
    | none => exact absurd (h.null hd).2 hne
    | some b => rfl
  cases fuel with
  | zero => rfl
  | succ f => simp [findIn, stopPtr, pend, hd, place, findLoop, pderef]

/-- C173: `find_in` of a vector answers for exactly the given range: the first match, or the end. -/
theorem vec_find_in {v : Vec α} {l ent outs : List α} (h : Reach v l ent outs) (eq : α → α → Bool) (raw : α) {i j : Nat}
    (hij : i ≤ j) (hj : j ≤ l.length) (hi : i < l.length) {fuel : Nat} (hf : l.length < fuel) :
    ∃ i1 i2 it, walk pnext i (pbegin v) = some i1 ∧ walk pnext j (pbegin v) = some i2 ∧
      findIn v eq raw i1 i2 fuel = some it ∧ FoundIn l (eq raw) i j it :=
  rep_find_in (reach_rep h) eq raw hij hj hi hf

example : ∃ i1 i2 it, walk pnext 1 (pbegin exVec) = some i1 ∧ walk pnext 2 (pbegin exVec) = some i2 ∧
    findIn exVec (· == ·) 3 i1 i2 9 = some it ∧ it.ref = none := by
  obtain ⟨i1, i2, it, a, b, c, d⟩ := vec_find_in reach_exVec (· == ·) 3 (i := 1) (j := 2) (by decide) (by decide) (by decide) (fuel := 9) (by decide)
  exact ⟨i1, i2, it, a, b, c, by simpa [FoundIn] using d⟩

/-- C173: `find` of a vector. -/
theorem vec_find_iter {v : Vec α} {l ent outs : List α} (h : Reach v l ent outs) (eq : α → α → Bool) (raw : α) {fuel : Nat}
    (hf : l.length < fuel) : ∃ it, findIt v eq raw fuel = some it ∧ FoundIn l (eq raw) 0 l.length it :=
  rep_find (reach_rep h) eq raw hf

example : ∃ it, findIt exVec (· == ·) 3 9 = some it ∧ it = ⟨some 2, 3⟩ := by
  obtain ⟨it, a, b⟩ := vec_find_iter reach_exVec (· == ·) 3 (fuel := 9) (by decide)
  exact ⟨it, a, b⟩

/-- C173, refutation: a search that starts with an iterator that has been advanced to the end reads through NULL,
however it is continued. -/
theorem vec_find_in_past_undefined {v : Vec α} {l ent outs : List α} (h : Reach v l ent outs) (hne : l ≠ []) (eq : α → α → Bool)
    (raw : α) (fuel : Nat) :
    ∃ i1, walk pnext l.length (pbegin v) = some i1 ∧ i1.ref = none ∧ findIn v eq raw i1 pend fuel = none :=
  rep_find_in_past (reach_rep h) hne eq raw fuel

example : ∃ i1, walk pnext 3 (pbegin exVec) = some i1 ∧ i1.ref = none ∧ findIn exVec (· == ·) 3 i1 pend 99 = none :=
  vec_find_in_past_undefined reach_exVec (by decide) _ 3 99

end Verif.Vec

namespace Verif.Stack
open Spec Vec
variable {α : Type}

/-- C173: `find_in` of a stack, with dynamic or fixed capacity. -/
theorem stack_find_in {fixed : Option Nat} (hc : fixed ≠ some 0) {s : Stack α} {l : List α} (h : Reach fixed s l) (eq : α → α → Bool)
    (raw : α) {i j : Nat} (hij : i ≤ j) (hj : j ≤ l.length) (hi : i < l.length) {fuel : Nat} (hf : l.length < fuel) :
    ∃ i1 i2 it, walk pnext i (pbegin s) = some i1 ∧ walk pnext j (pbegin s) = some i2 ∧
      findIn s eq raw i1 i2 fuel = some it ∧ FoundIn l (eq raw) i j it :=
  rep_find_in (reach_inv hc h).rep eq raw hij hj hi hf

example : ∃ i1 i2 it, walk pnext 0 (pbegin (⟨some [some 1, some 3], 2, 2, [2]⟩ : Stack Nat)) = some i1 ∧
    walk pnext 2 (pbegin (⟨some [some 1, some 3], 2, 2, [2]⟩ : Stack Nat)) = some i2 ∧
    findIn (⟨some [some 1, some 3], 2, 2, [2]⟩ : Stack Nat) (· == ·) 3 i1 i2 3 = some it ∧ it = ⟨some 1, 2⟩ := by
  obtain ⟨i1, i2, it, a, b, c, d⟩ := stack_find_in (by decide) reach_full (· == ·) 3 (i := 0) (j := 2) (by decide) (by decide) (by decide) (fuel := 3) (by decide)
  exact ⟨i1, i2, it, a, b, c, d⟩

/-- C173: `find` of a stack, also of an empty one. -/
theorem stack_find {fixed : Option Nat} (hc : fixed ≠ some 0) {s : Stack α} {l : List α} (h : Reach fixed s l) (eq : α → α → Bool)
    (raw : α) {fuel : Nat} (hf : l.length < fuel) :
    ∃ it, findIt s eq raw fuel = some it ∧ FoundIn l (eq raw) 0 l.length it :=
  rep_find (reach_inv hc h).rep eq raw hf

example : ∃ it, findIt (init (some 2) : Stack Nat) (· == ·) 3 1 = some it ∧ it.ref = none := by
  obtain ⟨it, a, b⟩ := stack_find (by decide) (Reach.init (fixed := some 2)) (· == ·) 3 (fuel := 1) (by decide)
  exact ⟨it, a, by simpa [FoundIn] using b⟩

/-- stack.h:266-273 `_eq`: the text of vec.h:255-262. -/
def eq (s t : Stack α) (e : α → α → Bool) : Option Bool := Vec.eq s t e

/-- C173: equality of stacks: the same number of elements, pairwise equal. The capacities, and whether they are fixed,
play no role. -/
theorem stack_eq {fixed fixed' : Option Nat} (hc : fixed ≠ some 0) (hc' : fixed' ≠ some 0) {s t : Stack α} {l m : List α}
    (h : Reach fixed s l) (h' : Reach fixed' t m) (e : α → α → Bool) :
    ∃ r, eq s t e = some r ∧
      (r = true ↔ l.length = m.length ∧ ∀ (j : Nat) x y, l[j]? = some x → m[j]? = some y → e x y = true) :=
  rep_eq (reach_inv hc h).rep (reach_inv hc' h').rep e

example : ∃ r, eq (⟨some [some 1, some 3], 2, 2, [2]⟩ : Stack Nat) (init none) (· == ·) = some r ∧ r = false := by
  obtain ⟨r, e1, e2⟩ := stack_eq (by decide) (by decide) reach_full (Reach.init (fixed := none)) (· == ·)
  exact ⟨r, e1, by simpa using e2⟩

end Verif.Stack
