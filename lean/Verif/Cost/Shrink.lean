import Verif.Vec.Props
import Verif.Stack.Props
import Verif.Deque.Props
import Verif.PQueue.Props
import Verif.Hmap.Props
import Verif.Smap.Props
import Verif.Cstr.Props
import Mathlib.Tactic.Common
/- C141: what `shrink_to_fit` leaves. -/
namespace Verif.Cost
variable {α κ ν : Type}

/-! ### bucket counts -/

theorem rnd_near {a b : Nat} (hQ : 2 ^ 23 ≤ a / b) : Hmap.rnd a b * 2 ^ 23 ≤ a / b * (2 ^ 23 + 1) := by
  obtain ⟨h1, h2, h3⟩ := Hmap.log2_bounds hQ
  obtain ⟨s, hs⟩ : ∃ s, Nat.log2 (a / b) = s + 23 := ⟨_, (Nat.sub_add_cancel h1).symm⟩
  rw [hs] at h2
  have hq : 2 ^ 23 ≤ a / (b * 2 ^ s) := by
    rw [← Nat.div_div_eq_div_mul]
    refine (Nat.le_div_iff_mul_le (Nat.two_pow_pos s)).2 ?_
    rw [← Nat.pow_add, Nat.add_comm]; exact h2
  have hm : a / (b * 2 ^ s) * 2 ^ s ≤ a / b := by
    rw [← Nat.div_div_eq_div_mul]; exact Nat.div_mul_le_self _ _
  have : Hmap.rnd a b ≤ (a / (b * 2 ^ s) + 1) * 2 ^ s := by
    simp only [Hmap.rnd, hs, Nat.add_sub_cancel]
    apply Nat.mul_le_mul_right
    split
    · omega
    · split <;> omega
  generalize a / (b * 2 ^ s) = q at *
  calc Hmap.rnd a b * 2 ^ 23 ≤ (q + 1) * 2 ^ s * 2 ^ 23 := Nat.mul_le_mul_right _ this
    _ = ((q + 1) * 2 ^ 23) * 2 ^ s := Nat.mul_right_comm ..
    _ ≤ (q * (2 ^ 23 + 1)) * 2 ^ s := Nat.mul_le_mul_right _ (by omega)
    _ = q * 2 ^ s * (2 ^ 23 + 1) := Nat.mul_right_comm ..
    _ ≤ a / b * (2 ^ 23 + 1) := Nat.mul_le_mul_right _ hm

theorem toFloat_near (n : Nat) : Hmap.toFloat n * 2 ^ 23 ≤ n * (2 ^ 23 + 1) := by
  unfold Hmap.toFloat
  split
  · omega
  · have := rnd_near (a := n) (b := 1) (by rw [Nat.div_one]; omega)
    rwa [Nat.div_one] at this

theorem quot_near (n : Nat) : 10 * Hmap.quot n ≤ 13 * n := by
  unfold Hmap.quot
  split
  · omega
  · rename_i h0
    have hp := Hmap.toFloat_pos (n := n) (by omega)
    have hl := toFloat_near n
    have hQ : 2 ^ 23 ≤ Hmap.toFloat n * 2 ^ 48 / Hmap.loadNum := by
      rw [Nat.le_div_iff_mul_le (by decide)]
      have : Hmap.loadNum = 13421773 := rfl
      omega
    have h1 := rnd_near hQ
    rw [show Hmap.loadNum = 13421773 from rfl] at *
    generalize Hmap.rnd (Hmap.toFloat n * 2 ^ 48) 13421773 = R at *
    generalize Hmap.toFloat n = F at *
    omega

theorem bucketsFor_near {n : Nat} (h : n < 2 ^ 59) : 5 * Hmap.bucketsFor n ≤ 13 * n + 30 := by
  have hq := quot_near n
  obtain ⟨⟨p, hp⟩, hge, hmin⟩ := Common.next_pow2_least (Hmap.quot n + 4) (by omega) (by omega)
  unfold Hmap.bucketsFor
  rw [hp] at hge ⊢
  have h2 : 2 ≤ p := by
    by_contra h
    have : 2 ^ p ≤ 2 ^ 1 := Nat.pow_le_pow_right (by decide) (by omega)
    omega
  obtain ⟨j, rfl⟩ : ∃ j, p = j + 1 := ⟨p - 1, by omega⟩
  have : ¬ Hmap.quot n + 4 ≤ 2 ^ j := fun h => by
    have := hmin j h
    rw [hp, Nat.pow_succ] at this
    have := Nat.two_pow_pos j
    omega
  rw [Nat.pow_succ]
  omega

/-! ### C141 -/

/-- C141, `vec`: a vec that is not empty has room for its elements and no more. -/
theorem vec_shrink_partial {v v' : Vec.Vec α} {l ent outs : List α} {r : Vec.Reply α} (h : Vec.Spec.Reach v l ent outs) (hl : l ≠ [])
    (hs : Vec.step v (.shrinkToFit true) = some (v', r)) : Vec.Spec.Reach v' l ent outs ∧ v'.cap = l.length := by
  have h1 := Vec.Spec.Reach.call (o := .shrinkToFit true) h trivial hs
  have hz : v.size = l.length := (Vec.reach_rep h).size
  have h0 : v.size ≠ 0 := by rw [hz]; simpa using hl
  refine ⟨by simpa [Vec.Spec.after, Vec.Spec.entered, Vec.Spec.out] using h1, ?_⟩
  simp only [Vec.step, Option.some.injEq, Prod.mk.injEq] at hs
  obtain ⟨rfl, -⟩ := hs
  simp only [Vec.shrinkToFit, Vec.reserve, if_true]
  rw [if_pos (.inr ⟨h0, trivial⟩)]
  exact hz

/-- C141 is false of an empty vec: it keeps all of its room. -/
theorem vec_shrink_empty (v : Vec.Vec α) (ok : Bool) (h : v.size = 0) : Vec.shrinkToFit ok v = v := by
  simp [Vec.shrinkToFit, Vec.reserve, h]

/-- C141, `stack`. -/
theorem stack_shrink_partial {s s' : Stack.Stack α} {l : List α} {b : Bool} {x : Option α} (h : Stack.Spec.Reach none s l) (hl : l ≠ [])
    (hs : Stack.step none s (.shrinkToFit true) = some (s', b, x)) : s'.cap = l.length := by
  have hz : s.size = l.length := (Stack.reach_inv (by simp) h).rep.size
  have h0 : s.size ≠ 0 := by rw [hz]; simpa using hl
  simp only [Stack.step, Option.some.injEq, Prod.mk.injEq] at hs
  obtain ⟨rfl, -⟩ := hs
  simp only [Stack.shrinkToFit, Stack.reserve, if_true]
  rw [if_pos (.inr ⟨h0, trivial⟩)]
  exact hz

/-- C141 is false of an empty stack. -/
theorem stack_shrink_empty (s : Stack.Stack α) (ok : Bool) (h : s.size = 0) : Stack.shrinkToFit none ok s = s := by
  simp [Stack.shrinkToFit, Stack.reserve, h]

/-- C141, `deque` and `queue`: the block has at most twice as many places as there are elements. -/
theorem deque_shrink_partial {d d' : Deque.Deque α} {l : List α} {r : Deque.Reply α} (h : Deque.Spec.Reach d l) (hl : l ≠ []) (hb : l.length < 2 ^ 61)
    (hs : Deque.step d (.shrinkToFit true) = some (d', r)) : d'.capmask + 1 ≤ 2 * l.length := by
  have hr := Deque.reach_rep h
  have h0 : 0 < l.length := List.length_pos_iff.2 hl
  simp only [Deque.step, Option.bind_eq_bind, Option.bind_eq_some_iff, Option.some.injEq, Prod.mk.injEq] at hs
  obtain ⟨d1, hs, rfl, -⟩ := hs
  unfold Deque.shrinkToFit at hs
  simp only [hr.size] at hs
  split at hs
  · cases hs
    omega
  · obtain ⟨⟨j, hj⟩, hge, hmin⟩ := Common.next_pow2_least (l.length + 1) (by omega) (by omega)
    have hw : ∃ b, Deque.withCapacity true l.length = some (⟨some b, 0, 0, Common.nextPow2 (l.length + 1) - 1, []⟩ : Deque.Deque α) := by
      have h1 : ¬ Common.nextPow2 (l.length + 1) ≤ 1 := fun h => by
        have : l.length + 1 ≤ Common.nextPow2 (l.length + 1) := hge
        omega
      unfold Deque.withCapacity Deque.reserve
      simp only [guard_pos (show Deque.fits l.length by unfold Deque.fits; omega), Option.bind_eq_bind, Option.bind_some, Deque.init, Nat.zero_add]
      rw [if_neg h1]
      exact ⟨_, rfl⟩
    obtain ⟨b, hw⟩ := hw
    rw [hw] at hs
    simp only [Option.bind_eq_bind, Option.bind_some, Option.bind_eq_some_iff, Option.some.injEq] at hs
    obtain ⟨xs, -, b', -, rfl⟩ := hs
    have hj' : Common.nextPow2 (l.length + 1) = 2 ^ j := hj
    have hge' : l.length + 1 ≤ 2 ^ j := by rw [← hj]; exact hge
    cases j with
    | zero => omega
    | succ j =>
      have : ¬ l.length + 1 ≤ 2 ^ j := fun h => by
        have := hmin j h
        rw [hj, Nat.pow_succ] at this
        have := Nat.two_pow_pos j
        omega
      simp only [hj', Nat.pow_succ]
      omega

/-- C141 is false of an empty deque. -/
theorem deque_shrink_empty {d : Deque.Deque α} (h : Deque.Spec.Reach d []) (ok : Bool) : Deque.shrinkToFit ok d = some d := by
  have hr := Deque.reach_rep h
  unfold Deque.shrinkToFit
  simp only [hr.size, List.length_nil]
  rw [if_neg (by omega)]
  have : Deque.withCapacity ok 0 = some (Deque.init : Deque.Deque α) := by
    have h1 : Common.nextPow2 (0 + 1) ≤ (Deque.init : Deque.Deque α).capmask + 1 := by show Common.nextPow2 1 ≤ 1; decide
    unfold Deque.withCapacity Deque.reserve
    simp only [guard_pos (show Deque.fits 0 by unfold Deque.fits; omega), Option.bind_eq_bind, Option.bind_some]
    rw [if_pos h1]
    rfl
  rw [this]
  rfl

/-- C141, `pqueue`: not empty (an empty one must not be shrunk, `pqueue_shrink_empty_undefined`). -/
theorem pqueue_shrink_partial {q q' : PQueue.PQ α} {b : Bool} (hl : q.elems ≠ []) (hs : PQueue.shrinkToFit true q = some (q', b)) :
    q'.elems = q.elems ∧ q'.cap = q.elems.length := by
  have h0 : q.elems.length ≠ 0 := by simpa using hl
  simp only [PQueue.shrinkToFit, PQueue.reserve, ne_eq, not_true_eq_false, false_and, if_false, h0, if_true, Option.some.injEq, Prod.mk.injEq] at hs
  obtain ⟨rfl, -⟩ := hs
  exact ⟨rfl, rfl⟩

/-- C141, `hmap` and `hset`: at most 2.6 buckets for each entry, and 6. -/
theorem hmap_shrink [DecidableEq κ] {H : Hmap.Hasher κ} (LH : Hmap.Spec.Lawful H) {m m' : Hmap.Map κ ν} {M : Hmap.Spec.FMap κ ν} {b : Bool} (h : Hmap.Spec.Reach H m M)
    (hb : M.length < 2 ^ 59) (hsp : Hmap.Spec.Spread (Hmap.bucketsFor M.length) (M.map fun e => Hmap.Spec.home H (Hmap.bucketsFor M.length) e.1))
    (hs : Hmap.shrink true H m = some (m', b)) : 5 * m'.bc ≤ 13 * M.length + 30 := by
  have hr := Hmap.reach_rep LH h
  have hz : m.size = M.length := hr.size
  obtain ⟨m1, e1, -, -, e2, -⟩ := Hmap.reserve_spec LH hr hb hsp
  rw [Hmap.shrink, hz, e1] at hs
  cases hs
  rw [e2 (Nat.le_refl _)]
  exact bucketsFor_near hb

/-- C141, `smap` and `sset`. -/
theorem smap_shrink [DecidableEq κ] {cmp : κ → κ → Int} (hc : Smap.Lawful cmp) {m m' : Smap.Map κ ν} {M : Smap.Spec.FMap κ ν} (h : Smap.Spec.Reach cmp m M)
    (hs : Smap.shrink true m = some m') : m'.cap = M.length := by
  obtain ⟨c, -, -, h1, -, -, h2⟩ := Smap.clone_spec (Smap.reach_holds hc h)
  rw [Smap.shrink, h2] at hs
  cases hs
  exact h1

/-- C141, `cstr`: a text of at most 22 bytes is stored in the object, a longer one in a block of its size
and the zero behind it. -/
theorem cstr_shrink {s s' : Cstr.Str} {bs : List Utf8.Byte} (h : Cstr.Spec.Reach s bs) (hs : Cstr.shrink s = some s') :
    Cstr.capacity s' = some (max 22 bs.length) := by
  obtain ⟨s1, d, e1, e2⟩ := Cstr.shrink_rep (Cstr.rep_of_reach h)
  rw [e1] at hs
  cases hs
  simp [Cstr.capacity, Cstr.getbuf_eq e2]

/-! ### examples -/

/-- Three elements in a block for ten. -/
theorem vec_three : ∃ v : Vec.Vec Nat, Vec.Spec.Reach v [1, 2, 3] [1, 2, 3] [] ∧ v.cap = 10 :=
  ⟨⟨some [some 1, some 2, some 3, none, none, none, none, none, none, none], 3, 10, []⟩,
    .call (o := .push true 3) (r := ⟨true, none⟩) (.call (o := .push true 2) (r := ⟨true, none⟩) (.call (o := .push true 1) (r := ⟨true, none⟩)
      (.call (o := .reserve true 10) (r := ⟨true, none⟩) .init trivial rfl) trivial rfl) trivial rfl) trivial rfl, rfl⟩

example : ∃ v v' : Vec.Vec Nat, v.cap = 10 ∧ v'.cap = 3 ∧ ∃ r, Vec.step v (.shrinkToFit true) = some (v', r) := by
  obtain ⟨v, h, hc⟩ := vec_three
  exact ⟨v, _, hc, (vec_shrink_partial h (by simp) rfl).2, _, rfl⟩

/-- One element in a block for eight, in the middle of it. -/
theorem deque_one : ∃ d : Deque.Deque Nat, Deque.Spec.Reach d [5] ∧ d.capmask = 7 :=
  ⟨_, .call (o := .push true 5) (.call (o := .reserve true 7) .init (by decide) rfl) (by decide) rfl, rfl⟩

example : ∃ d d' : Deque.Deque Nat, d.capmask = 7 ∧ d'.capmask ≤ 1 ∧ ∃ r, Deque.step d (.shrinkToFit true) = some (d', r) := by
  obtain ⟨d, h, hc⟩ := deque_one
  obtain ⟨d', e, -⟩ := Deque.shrink_spec (Deque.reach_rep h) true (by decide)
  have e' : Deque.step d (.shrinkToFit true) = some (d', ⟨true, none⟩) := by simp [Deque.step, e]
  have := deque_shrink_partial h (by simp) (by decide) e'
  exact ⟨d, d', hc, by simpa using this, _, e'⟩

example : ∃ q : PQueue.PQ Nat, PQueue.shrinkToFit true ⟨true, [9, 3, 4], 20, []⟩ = some (q, true) ∧ q.cap = 3 :=
  ⟨_, rfl, (pqueue_shrink_partial (q := ⟨true, [9, 3, 4], 20, []⟩) (by simp) rfl).2⟩

example : 5 * Hmap.bucketsFor 1000 ≤ 13 * 1000 + 30 := bucketsFor_near (by decide)

/-- A string with room for 100 bytes. -/
example : ∃ s s', Cstr.Spec.Reach s [] ∧ Cstr.capacity s = some 100 ∧ Cstr.shrink s = some s' ∧ Cstr.capacity s' = some 22 := by
  cases h : Cstr.withCapacity 100 with
  | none => exact absurd h (by decide +kernel)
  | some s =>
    have h1 : Cstr.Spec.Reach s [] := .withCapacity 100 s h
    obtain ⟨s', d, e1, -⟩ := Cstr.shrink_rep (Cstr.rep_of_reach h1)
    refine ⟨s, s', h1, ?_, e1, cstr_shrink h1 e1⟩
    have : (Cstr.withCapacity 100).bind Cstr.capacity = some 100 := by decide +kernel
    rwa [h] at this

/-- A map with room for 10 entries that has none. -/
example : ∃ m m' : Smap.Map Nat Nat, Smap.Spec.Reach Smap.natCmp m [] ∧ m.cap = 10 ∧ Smap.shrink true m = some m' ∧ m'.cap = 0 := by
  have h1 : Smap.Spec.Reach (ν := Nat) Smap.natCmp _ [] := .withCapacity true 10 _ (by decide) rfl
  exact ⟨_, _, h1, rfl, rfl, smap_shrink Smap.natCmp_lawful h1 rfl⟩

end Verif.Cost
