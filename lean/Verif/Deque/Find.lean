import Verif.Deque.Props
/-
Searching a deque: deque.h:116-123 `_find` and 193-202 `_find_in`.
-/
namespace Verif.Deque
open Spec
variable {α : Type}

/-- The loop of deque.h:195-200 for at most `fuel` rounds; `stop` is `i2.ref`. Reading through NULL or outside the
live elements is undefined. -/
def findLoop (d : Deque α) (eq : α → α → Bool) (raw : α) (stop : Option Nat) : Nat → Iter → Option Iter
  | 0, _ => none
  | fuel + 1, i1 =>
    if i1.ref = stop then some i1
    else (deref d i1).bind fun x =>
      if eq raw x then some i1
      else (next d i1).bind (findLoop d eq raw stop fuel)

/-- deque.h:193-202 `_find_in`. -/
def findIn (d : Deque α) (eq : α → α → Bool) (raw : α) (i1 i2 : Iter) (fuel : Nat) : Option Iter :=
  findLoop d eq raw i2.ref fuel i1

/-- deque.h:118-121 `_find`. -/
def find (d : Deque α) (eq : α → α → Bool) (raw : α) (fuel : Nat) : Option Iter :=
  findIn d eq raw (begin d) endIter fuel

/-- The iterator at place `i` of a deque holding `l`. -/
def seatOf (d : Deque α) (l : List α) (i : Nat) : Iter := iterOf d.start d.capmask l.length i

theorem next_seat {d : Deque α} {l : List α} (h : Rep d l) {i : Nat} (hi : i < l.length) :
    next d (seatOf d l i) = some (seatOf d l (i + 1)) := by
  have h1 := nexts_begin h i (by omega)
  have h2 := nexts_begin h (i + 1) (by omega)
  rw [nexts, h1, Option.bind_some] at h2
  exact h2

theorem seat_ref {d : Deque α} {l : List α} (h : Rep d l) {i j : Nat} (hi : i ≤ l.length) (hj : j ≤ l.length) :
    (seatOf d l i).ref = (seatOf d l j).ref ↔ i = j := by
  have hlen := h.len
  constructor
  · intro hh
    simp only [seatOf, iterOf] at hh
    by_cases h1 : i < l.length <;> by_cases h2 : j < l.length
    · rw [if_pos h1, if_pos h2, Option.some.injEq] at hh
      exact mod_inj (by omega) (by omega) hh
    · rw [if_pos h1, if_neg h2] at hh; simp at hh
    · rw [if_neg h1, if_pos h2] at hh; simp at hh
    · omega
  · rintro rfl; rfl

/-- Where the search of the places `i`, …, `j - 1` stops. -/
def stopsAt (l : List α) (p : α → Bool) (i j : Nat) : Nat :=
  match ((l.take j).drop i).findIdx? p with
  | some k => i + k
  | none => j

theorem findLoop_spec {d : Deque α} {l : List α} (h : Rep d l) (eq : α → α → Bool) (raw : α) {j : Nat} (hj : j ≤ l.length) :
    ∀ (k i fuel : Nat), i + k = j → k < fuel →
      findLoop d eq raw (seatOf d l j).ref fuel (seatOf d l i) = some (seatOf d l (stopsAt l (eq raw) i j)) := by
  intro k
  induction k with
  | zero =>
    intro i fuel hi hf
    obtain ⟨f, rfl⟩ : ∃ f, fuel = f + 1 := ⟨fuel - 1, by omega⟩
    have : i = j := by omega
    subst this
    have : (l.take i).drop i = [] := by apply List.drop_of_length_le; simp
    rw [findLoop, if_pos rfl]
    simp [stopsAt, this]
  | succ k ih =>
    intro i fuel hi hf
    obtain ⟨f, rfl⟩ : ∃ f, fuel = f + 1 := ⟨fuel - 1, by omega⟩
    have hil : i < l.length := by omega
    have hd : deref d (seatOf d l i) = some l[i] := by rw [seatOf, deref_iterOf h i, List.getElem?_eq_getElem hil]
    have hsplit : (l.take j).drop i = l[i] :: (l.take j).drop (i + 1) := by
      rw [List.drop_eq_getElem_cons (by simp; omega)]; simp
    rw [findLoop, if_neg (by rw [seat_ref h (by omega) hj]; omega), hd, Option.bind_some]
    by_cases he : eq raw l[i] = true
    · rw [if_pos he, stopsAt, hsplit, List.findIdx?_cons, if_pos he]; rfl
    · rw [if_neg he, next_seat h hil, Option.bind_some, ih (i + 1) f (by omega) (by omega)]
      congr 2
      rw [stopsAt, stopsAt, hsplit, List.findIdx?_cons, if_neg he]
      cases ((l.take j).drop (i + 1)).findIdx? (eq raw) with
      | none => rfl
      | some m => simp; omega

/-- C173 (partial: without a match the result is the second iterator of the range, which is the end only if the range
extends to the end of the deque): `find_in` of a deque answers with the iterator at the first match of the range. -/
theorem deque_find_in_partial {d : Deque α} {l : List α} (h : Reach d l) (eq : α → α → Bool) (raw : α) {i j : Nat} (hij : i ≤ j)
    (hj : j ≤ l.length) {fuel : Nat} (hf : l.length < fuel) :
    ∃ i1 i2 it, nexts d (begin d) i = some i1 ∧ nexts d (begin d) j = some i2 ∧ findIn d eq raw i1 i2 fuel = some it ∧
      match ((l.take j).drop i).findIdx? (eq raw) with
      | some k => nexts d (begin d) (i + k) = some it ∧ deref d it = l[i + k]? ∧ index d it = i + k
      | none => it = i2 ∧ deref d it = l[j]? ∧ (it.ref = none ↔ j = l.length) := by
  have hr := reach_rep h
  have e := findLoop_spec hr eq raw hj (j - i) i fuel (by omega) (by omega)
  refine ⟨_, _, _, nexts_begin hr i (by omega), nexts_begin hr j hj, e, ?_⟩
  rw [stopsAt]
  cases hx : ((l.take j).drop i).findIdx? (eq raw) with
  | none =>
    refine ⟨rfl, deref_iterOf hr j, ?_⟩
    have := seat_ref hr hj (Nat.le_refl l.length)
    rwa [show (seatOf d l l.length).ref = none by simp [seatOf, iterOf]] at this
  | some k =>
    have hk : k < ((l.take j).drop i).length := by
      obtain ⟨h1, _⟩ := List.findIdx?_eq_some_iff_getElem.1 hx; exact h1
    simp at hk
    refine ⟨nexts_begin hr (i + k) (by omega), deref_iterOf hr (i + k), ?_⟩
    have hlen := hr.len
    have hp : (seatOf d l (i + k)).pos = (d.start + (i + k)) % (d.capmask + 1) := rfl
    show toidx d (seatOf d l (i + k)).pos = i + k
    rw [hp, hr.toidx (by omega)]

/-- C173: `find` of a deque: the first match, or the end. -/
theorem deque_find {d : Deque α} {l : List α} (h : Reach d l) (eq : α → α → Bool) (raw : α) {fuel : Nat} (hf : l.length < fuel) :
    ∃ it, find d eq raw fuel = some it ∧
      match l.findIdx? (eq raw) with
      | some k => nexts d (begin d) k = some it ∧ deref d it = l[k]? ∧ index d it = k
      | none => it.ref = none := by
  obtain ⟨i1, i2, it, e1, e2, e3, e4⟩ := deque_find_in_partial h eq raw (Nat.zero_le l.length) (Nat.le_refl _) hf
  have h1 : i1 = begin d := by simpa [nexts] using e1.symm
  have h2 : i2.ref = none := by
    have := nexts_begin (reach_rep h) l.length (Nat.le_refl _)
    rw [e2, Option.some.injEq] at this
    rw [this]; simp [iterOf]
  refine ⟨it, ?_, ?_⟩
  · rw [← e3, find, findIn, findIn, h1, h2]; rfl
  · simp only [List.take_length, List.drop_zero, Nat.zero_add] at e4
    cases hx : l.findIdx? (eq raw) with
    | none => rw [hx] at e4; simpa using e4.2.2
    | some k => rw [hx] at e4; exact e4

example : ∃ it, find exDeque (· == ·) 5 9 = some it ∧ deref exDeque it = some 5 ∧ index exDeque it = 1 := by
  obtain ⟨it, a, b⟩ := deque_find reach_exDeque (· == ·) 5 (fuel := 9) (by decide)
  exact ⟨it, a, b.2⟩

example : ∃ i1 i2 it, nexts exDeque (begin exDeque) 0 = some i1 ∧ nexts exDeque (begin exDeque) 2 = some i2 ∧
    findIn exDeque (· == ·) 5 i1 i2 9 = some it ∧ deref exDeque it = some 5 := by
  obtain ⟨i1, i2, it, a, b, c, e⟩ := deque_find_in_partial reach_exDeque (· == ·) 5 (i := 0) (j := 2) (by decide) (by decide) (fuel := 9) (by decide)
  exact ⟨i1, i2, it, a, b, c, e.2.1⟩

/-- C173, refutation: a search of a part of a deque without a match answers with an iterator that is not the end and
refers to an element outside the range, which does not match. -/
theorem deque_find_in_wrong :
    ∃ (d : Deque Nat) (l : List Nat) (i1 i2 it : Iter), Reach d l ∧ nexts d (begin d) 0 = some i1 ∧ nexts d (begin d) 1 = some i2 ∧
      (∀ fuel, 1 < fuel → findIn d (· == ·) 9 i1 i2 fuel = some it) ∧ it.ref ≠ none ∧ deref d it = some 5 ∧ 9 ∉ l := by
  refine ⟨exDeque, [4, 5], ⟨some 3, 3⟩, ⟨some 0, 0⟩, ⟨some 0, 0⟩, reach_exDeque, rfl, rfl, ?_, ?_, ?_, by decide⟩
  · intro fuel hf
    obtain ⟨f, rfl⟩ : ∃ f, fuel = f + 2 := ⟨fuel - 2, by omega⟩
    rfl
  · decide
  · rfl

end Verif.Deque
