import Verif.Stack.Props
import Verif.Vec.Props
/-
Moving the iterators of vectors and stacks by several places, and the index of an iterator: vec.h:213-243
and stack.h:211-242, which have the same text.

Iterators are modelled here in both directions: `ref` and `fin` are offsets from `data`; a NULL `ref` is
`none`; the end mark of a reverse iterator is -1.
-/
namespace Verif.Vec
open Spec

/-- types.h `_c_vec_types`: `struct { value *ref, *end; }`. -/
structure PIter where
  ref : Option Int
  fin : Int
  deriving DecidableEq

/-- vec.h:215-219 `_begin`. -/
def pbegin (v : Vec α) : PIter := if v.data.isSome then ⟨some 0, v.size⟩ else ⟨none, 0⟩

/-- vec.h:221-225 `_rbegin`. -/
def prbegin (v : Vec α) : PIter := if v.data.isSome then ⟨some (v.size - 1), -1⟩ else ⟨none, 0⟩

/-- vec.h:233-234 `_next`; on a NULL iterator it is a misuse. -/
def pnext (it : PIter) : Option PIter :=
  it.ref.map fun r => if r + 1 = it.fin then { it with ref := none } else { it with ref := some (r + 1) }

/-- vec.h:236-237 `_rnext`. -/
def prnext (it : PIter) : Option PIter :=
  it.ref.map fun r => if r - 1 = it.fin then { it with ref := none } else { it with ref := some (r - 1) }

/-- vec.h:239-242, stack.h:237-238 `_advance`: forming a pointer beyond the end of the block, or adding
to NULL, is undefined; `n` is a `size_t`. -/
def padvance (v : Vec α) (it : PIter) (n : Nat) : Option PIter :=
  it.ref.bind fun r =>
    if r + n ≤ v.cap then
      some (if r + n ≥ it.fin then { it with ref := none } else { it with ref := some (r + n) })
    else none

/-- vec.h:244-245, stack.h:240-241 `_index`: the difference of two pointers into the block. -/
def pindex (it : PIter) : Option Int := it.ref

/-- `*it.ref`. -/
def pderef (v : Vec α) (it : PIter) : Option α :=
  it.ref.bind fun r => if r < 0 then none else v.data.bind fun b => b.rd r.toNat

/-- What `advance` stands for: up to `n` calls of `step`, stopping at the end. -/
def walk (step : PIter → Option PIter) : Nat → PIter → Option PIter
  | 0, it => some it
  | n + 1, it => if it.ref = none then some it else (step it).bind (walk step n)

/-- Where a forward walk of `n` places from the beginning gets in a list of `len` elements. -/
def place (len n : Nat) : PIter := if n < len then ⟨some n, len⟩ else ⟨none, len⟩

theorem walk_place {len : Nat} : ∀ (n i : Nat), i ≤ len →
    walk pnext n (place len i) = some (place len (i + n))
  | 0, i, _ => rfl
  | n + 1, i, hi => by
    by_cases h : i < len
    · have hn : pnext (place len i) = some (place len (i + 1)) := by
        rw [place, if_pos h, pnext, place]
        by_cases h' : i + 1 < len
        · rw [if_pos h']; simp; omega
        · rw [if_neg h']; simp; omega
      have hr : ¬ (place len i).ref = none := by rw [place, if_pos h]; simp
      rw [walk, if_neg hr, hn, Option.bind_some, walk_place n (i + 1) (by omega)]
      congr 2; omega
    · have hr : (place len i).ref = none := by rw [place, if_neg h]
      rw [walk, if_pos hr, place, if_neg h, place, if_neg (by omega)]

theorem rep_begin {v : Vec α} {l : List α} (h : Rep v l) (hne : l ≠ []) : pbegin v = place l.length 0 := by
  have hd : v.data.isSome := by
    cases hd : v.data with
    | none => exact absurd (h.null hd).2 hne
    | some b => rfl
  have := List.length_pos_iff.2 hne
  rw [pbegin, if_pos hd, place, if_pos this, h.size]; rfl

theorem rep_deref {v : Vec α} {l : List α} (h : Rep v l) (hne : l ≠ []) (i : Nat) :
    pderef v (place l.length i) = l[i]? := by
  cases hd : v.data with
  | none => exact absurd (h.null hd).2 hne
  | some b =>
    obtain ⟨_, h2, _⟩ := h.blk b hd
    by_cases hi : i < l.length
    · rw [place, if_pos hi, pderef, hd]
      have hb : b[i]? = some (some l[i]) := by
        have := congrArg (·[i]?) h2
        simp only [List.getElem?_take, hi, if_true, List.getElem?_map, List.getElem?_eq_getElem] at this
        exact this
      simp [Buf.rd, hb, hi]
    · rw [place, if_neg hi, List.getElem?_eq_none (by omega)]; rfl

theorem rep_advance {v : Vec α} {l : List α} {i : Nat} (hi : i < l.length) (n : Nat) :
    padvance v (place l.length i) n = if i + n ≤ v.cap then some (place l.length (i + n)) else none := by
  rw [place, if_pos hi, padvance]
  simp only [Option.bind_some]
  by_cases hc : i + n ≤ v.cap
  · rw [if_pos (by omega), if_pos hc, place]
    by_cases hl : i + n < l.length
    · rw [if_pos hl, if_neg (by omega)]; simp
    · rw [if_neg hl, if_pos (by omega)]
  · rw [if_neg (by omega), if_neg hc]

theorem rep_advances {v : Vec α} {l : List α} (h : Rep v l) (hne : l ≠ []) {i n : Nat} (hi : i < l.length)
    (hn : i + n ≤ v.cap) :
    ∃ it it', walk pnext i (pbegin v) = some it ∧ pderef v it = l[i]? ∧ pindex it = some (i : Int) ∧
      padvance v it n = some it' ∧ walk pnext n it = some it' ∧ pderef v it' = l[i + n]? ∧
      (it'.ref = none ↔ l.length ≤ i + n) := by
  refine ⟨place l.length i, place l.length (i + n), ?_, rep_deref h hne i, ?_, ?_, ?_, rep_deref h hne _, ?_⟩
  · rw [rep_begin h hne, walk_place _ _ (by omega), Nat.zero_add]
  · rw [place, if_pos hi]; rfl
  · rw [rep_advance hi, if_pos hn]
  · exact walk_place _ _ (by omega)
  · unfold place
    split <;> simp <;> omega

/-- C159 (partial: the new place lies within the capacity). In a vector after any history, an iterator
walked to the `i`-th element refers to that element and has index `i`; advanced by `n`, it is the iterator
that `n` calls of `next` give: at the `i + n`-th element, or at the end when there is none. -/
theorem vec_advance_partial {v : Vec α} {l ent outs : List α} (h : Reach v l ent outs) {i n : Nat}
    (hi : i < l.length) (hn : i + n ≤ v.cap) :
    ∃ it it', walk pnext i (pbegin v) = some it ∧ pderef v it = l[i]? ∧ pindex it = some (i : Int) ∧
      padvance v it n = some it' ∧ walk pnext n it = some it' ∧ pderef v it' = l[i + n]? ∧
      (it'.ref = none ↔ l.length ≤ i + n) :=
  rep_advances (reach_rep h) (by rintro rfl; simp at hi) hi hn

/-- C159, for both kinds of stack. -/
theorem stack_advance_partial {fixed : Option Nat} (hf : fixed ≠ some 0) {s : Stack.Stack α} {l : List α}
    (h : Stack.Spec.Reach fixed s l) {i n : Nat} (hi : i < l.length) (hn : i + n ≤ s.cap) :
    ∃ it it', walk pnext i (pbegin s) = some it ∧ pderef s it = l[i]? ∧ pindex it = some (i : Int) ∧
      padvance s it n = some it' ∧ walk pnext n it = some it' ∧ pderef s it' = l[i + n]? ∧
      (it'.ref = none ↔ l.length ≤ i + n) :=
  rep_advances (Stack.reach_inv hf h).rep (by rintro rfl; simp at hi) hi hn

example : ∃ it, walk pnext 1 (pbegin exVec) = some it ∧ pderef exVec it = some 8 ∧
    (padvance exVec it 1).bind (pderef exVec) = some 3 := by
  obtain ⟨it, it', h1, h2, _, h4, _, h6, _⟩ := vec_advance_partial reach_exVec (i := 1) (n := 1) (by decide) (by decide)
  exact ⟨it, h1, h2, by rw [h4]; exact h6⟩

/-- C159, refutation past the capacity: `next` stops at the end, but advancing further than the block
reaches is undefined. -/
theorem vec_advance_overflow {v : Vec α} {l ent outs : List α} (h : Reach v l ent outs) {i n : Nat}
    (hi : i < l.length) (hn : v.cap < i + n) :
    ∃ it it', walk pnext i (pbegin v) = some it ∧ walk pnext n it = some it' ∧ it'.ref = none ∧
      padvance v it n = none := by
  have hr := reach_rep h
  have hne : l ≠ [] := by rintro rfl; simp at hi
  have := hr.le_cap
  refine ⟨place l.length i, place l.length (i + n), ?_, walk_place _ _ (by omega), ?_, ?_⟩
  · rw [rep_begin hr hne, walk_place _ _ (by omega), Nat.zero_add]
  · rw [place, if_neg (by omega)]
  · rw [rep_advance hi, if_neg (by omega)]

example : ∃ it it', walk pnext 0 (pbegin exVec) = some it ∧ walk pnext 5 it = some it' ∧ it'.ref = none ∧
    padvance exVec it 5 = none := vec_advance_overflow reach_exVec (by decide) (by decide)

/-- C159, refutation for reverse iterators: whatever the vector, a reverse iterator that has not reached
its end is at the end after advancing by any number of places, even by none, although stepping visits all the elements down to the first before it ends. -/
theorem vec_advance_reverse {v : Vec α} {l ent outs : List α} (h : Reach v l ent outs) {i n : Nat}
    (hi : i < l.length) (hn : l.length - 1 - i + n ≤ v.cap) :
    ∃ it, walk prnext i (prbegin v) = some it ∧ pderef v it = l[l.length - 1 - i]? ∧
      (∃ it', walk prnext (l.length - 1 - i) it = some it' ∧ pderef v it' = l[0]? ∧ ∃ e, prnext it' = some e ∧ e.ref = none) ∧
      padvance v it n = some ⟨none, -1⟩ := by
  have hr := reach_rep h
  have hne : l ≠ [] := by rintro rfl; simp at hi
  have hd : v.data.isSome := by
    cases hd : v.data with
    | none => exact absurd (hr.null hd).2 hne
    | some b => rfl
  have hw : ∀ k j : Nat, k ≤ j → walk prnext k ⟨some (j : Int), -1⟩ = some ⟨some ((j - k : Nat) : Int), -1⟩ := by
    intro k
    induction k with
    | zero => intro j _; rfl
    | succ k ih =>
      intro j hj
      have hn : prnext ⟨some (j : Int), -1⟩ = some ⟨some ((j - 1 : Nat) : Int), -1⟩ := by
        rw [prnext, Option.map_some, if_neg (by simp only; omega)]
        congr 3; omega
      rw [walk, if_neg (by simp), hn, Option.bind_some, ih _ (by omega)]
      congr 3; omega
  refine ⟨⟨some ((l.length - 1 - i : Nat) : Int), -1⟩, ?_, ?_, ⟨⟨some 0, -1⟩, ?_, ?_, ⟨none, -1⟩, ?_, rfl⟩, ?_⟩
  · rw [prbegin, if_pos hd, hr.size, show ((l.length : Int) - 1) = ((l.length - 1 : Nat) : Int) by omega]
    exact hw _ _ (by omega)
  · have := rep_deref hr hne (l.length - 1 - i)
    rw [place, if_pos (by omega)] at this
    exact this
  · have := hw (l.length - 1 - i) (l.length - 1 - i) (Nat.le_refl _)
    rwa [Nat.sub_self] at this
  · have := rep_deref hr hne 0
    rw [place, if_pos (by omega)] at this
    exact this
  · rfl
  · rw [padvance]
    simp only [Option.bind_some]
    rw [if_pos (by omega), if_pos (by omega)]

example : ∃ it, walk prnext 1 (prbegin exVec) = some it ∧ pderef exVec it = some 8 ∧
    padvance exVec it 0 = some ⟨none, -1⟩ := by
  obtain ⟨it, h1, h2, -, h3⟩ := vec_advance_reverse reach_exVec (i := 1) (n := 0) (by decide) (by decide)
  exact ⟨it, h1, by simpa using h2, h3⟩

end Verif.Vec
