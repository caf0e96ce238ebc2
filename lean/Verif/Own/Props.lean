import Verif.Own.Lemmas
/-
C149: container variables have values of their own, and every element is destroyed exactly once.
-/
namespace Verif.Own
open Spec
variable {ν : Type}

/-- C149 (partial: all containers but vec need an allocator that grants what `_clone` and `_copy` ask for; fixed-capacity
stacks fail, see `fixed_move_destroys_twice`). Whatever a program has done with its variables so far: as long as it
does not use a variable before initialising or after dropping it, does not initialise one in use, stays within the
sequences and swaps different variables, the next call is defined and has exactly the effect it has on values. -/
theorem own_safe_partial {k : Kind} {s : St ν} {m : Vals ν} (h : Reach k s m) {op : Op ν} (hL : Legal m op) (hG : Granted k s op) :
    ∃ t r m', step k s op = some (t, r) ∧ Spec.step m r op = some m' ∧ Reach k t m' := by
  obtain ⟨pl, ow, I⟩ := reach_inv h
  obtain ⟨t, r, m', pl', ow', h1, h2, _⟩ := inv_step I hL hG
  exact ⟨t, r, m', h1, h2, h.step hL hG h1 h2⟩

/-- C149. A variable in use holds exactly the values of its own history: what happens to other variables, those it was
cloned or copied from or those that were cloned or copied from it, has no effect on it. -/
theorem own_values {k : Kind} {s : St ν} {m : Vals ν} (h : Reach k s m) {i : Nat} {l : List ν} (hi : m i = some l) :
    values s i = some l := by
  obtain ⟨pl, ow, I⟩ := reach_inv h
  obtain ⟨oh, b, hd, _, hl, _⟩ := has_used I hi
  simp [values, hd, hl]

/-- C149. A call reports or shows lack of memory only if the allocator refused. -/
theorem own_refused {k : Kind} {s t : St ν} {m : Vals ν} (hR : Reach k s m) {op : Op ν} (hL : Legal m op)
    (hs : step k s op = some (t, false)) :
    (∃ i p v a l, op = .insert i p v a ∧ m i = some l ∧ ∀ h c, a = some (h, c) → s.heap h = none → ¬ l.length < c) ∨
    (∃ j i a l, (op = .clone j i a ∨ op = .copy j i a) ∧ m i = some l ∧
      ∀ h c, a = some (h, c) → s.heap h = none → ¬ l.length ≤ c) := by
  obtain ⟨pl, ow, I⟩ := reach_inv hR
  cases op with
  | insert i p v a =>
    cases hi : m i with
    | none => exact absurd (by simp [Spec.step, hi]) hL
    | some l =>
      obtain ⟨oh, b, hd, hh, hl, hv⟩ := has_used I hi
      refine Or.inl ⟨i, p, v, a, l, rfl, hi, ?_⟩
      rintro h c rfl hn hc
      have hlen : l.length = b.el.length := by rw [← hl]; simp
      have hr : regrant s oh (b.el.length + 1) (some (h, c)) = some (h, c) := by
        simp only [regrant, Option.filter_some, hn]; rw [if_pos]; simp; omega
      simp only [step, insert, hd, Option.bind_some, hr] at hs
      split at hs
      · split at hs
        · cases oh <;> simp at hs
        · simp at hs
      · cases hs
  | clone j i a =>
    cases hi : m i with
    | none => exact absurd (by simp [Spec.step, hi]) hL
    | some l =>
      obtain ⟨oh, b, hd, hh, hl, hv⟩ := has_used I hi
      refine Or.inr ⟨j, i, a, l, Or.inl rfl, hi, ?_⟩
      rintro h c rfl hn hc
      have hlen : l.length = b.el.length := by rw [← hl]; simp
      have hr : grant s b.el.length (some (h, c)) = some (h, c) := by
        simp only [grant, Option.filter_some, hn]; rw [if_pos]; simp; omega
      simp only [step, clone, hd, Option.bind_some, hr] at hs
      split at hs <;> simp at hs
  | copy j i a =>
    cases hi : m i with
    | none => exact absurd (by simp [Spec.step, hi]) hL
    | some l =>
    cases hj : m j with
    | none => exact absurd (by simp [Spec.step, hi, hj]) hL
    | some l' =>
      obtain ⟨oh, b, hd, hh, hl, hv⟩ := has_used I hi
      obtain ⟨oj, bj, hdj, hhj, hlj, hvj⟩ := has_used I hj
      refine Or.inr ⟨j, i, a, l, Or.inr rfl, hi, ?_⟩
      rintro h c rfl hn hc
      have hlen : l.length = b.el.length := by rw [← hl]; simp
      simp only [step, copy, hd, hdj, Option.bind_some] at hs
      split at hs
      · simp at hs
      · rename_i hne
        cases k with
        | vec =>
          simp only [clear, hdj, Option.map_some, Option.bind_some] at hs
          cases oj with
          | none =>
            have hr : regrant s none (b.el.map (·.2)).length (some (h, c)) = some (h, c) := by
              simp only [regrant, Option.filter_some, hn]; rw [if_pos]; simp; omega
            simp only [refill, hdj, Option.bind_some, hr] at hs
            split at hs
            · split at hs <;> simp at hs
            · simp at hs
          | some hj' =>
            have hvar := (has_var I hhj).2
            have hbj := (has_var I hhj).1
            have hd1' : deref (⟨set s.heap hj' (some { bj with el := [] }), s.var, s.next, s.gone ++ bj.el.reverse.map fun x => (x.1, true)⟩ : St ν) j = some (some hj', { bj with el := [] }) := by
              simp [deref, hvar, set_same]
            have hr : regrant (⟨set s.heap hj' (some { bj with el := [] }), s.var, s.next, s.gone ++ bj.el.reverse.map fun x => (x.1, true)⟩ : St ν) (some hj') (b.el.map (·.2)).length (some (h, c)) = some (h, c) := by
              have hhne : h ≠ hj' := by rintro rfl; rw [hn] at hbj; cases hbj
              simp only [regrant, Option.filter_some, set_ne _ _ hhne, hn]; rw [if_pos]; simp; omega
            simp only [refill, hd1', Option.bind_some, hr] at hs
            split at hs <;> simp at hs
        | other =>
          simp only at hs
          obtain ⟨oj2, bj2, pl1, ow1, hd2, hh2, hdr, I1⟩ := drop_inv I hj
          rw [hdr, Option.bind_some] at hs
          simp only [clone] at hs
          cases hx : deref (⟨free s.heap oj2, s.var, s.next, s.gone ++ bj2.el.reverse.map fun x => (x.1, true)⟩ : St ν) i with
          | none => rw [hx] at hs; cases hs
          | some y =>
            rw [hx, Option.bind_some] at hs
            simp only [reduceCtorEq, false_and, if_false] at hs
            split at hs
            · cases hs
            · simp at hs
  | _ =>
    simp only [step, Option.map_eq_some_iff] at hs
    first
    | (obtain ⟨_, _, h2⟩ := hs; cases h2)
    | cases hs

/-- C149. At any time every element ever made (added or cloned) is in exactly one place: once among those that left
their container (destroyed, or handed to the caller), or once in the container of one variable in use. So no element
is destroyed twice, or while some variable still holds it. -/
theorem own_once {k : Kind} {s : St ν} {m : Vals ν} (h : Reach k s m) :
    (s.gone.map (·.1)).Nodup ∧
    (∀ x, x < s.next ↔ (x ∈ s.gone.map (·.1) ∨ ∃ i, Held s m x i)) ∧
    (∀ x i, x ∈ s.gone.map (·.1) → ¬ Held s m x i) ∧
    (∀ x i j, Held s m x i → Held s m x j → i = j) ∧
    ∀ i h b, m i ≠ none → deref s i = some (h, b) → (b.el.map (·.1)).Nodup := by
  obtain ⟨pl, ow, I⟩ := reach_inv h
  have hheld : ∀ x i, Held s m x i → ∃ h b, s.heap h = some b ∧ ow h = i ∧ x < s.next ∧ pl x = some h := by
    rintro x i ⟨hi, h', b, hd, hx⟩
    obtain ⟨l, hl⟩ := Option.ne_none_iff_exists'.1 hi
    obtain ⟨oh, b', hd', hh, _, _⟩ := has_used I hl
    rw [hd] at hd'; cases hd'
    rcases hh with ⟨_, rfl, _⟩ | ⟨h2, _, hb, ho⟩
    · simp at hx
    · exact ⟨h2, b, hb, ho, (((I.blk h2 b hb).2.2.2 x).1 hx).1, (((I.blk h2 b hb).2.2.2 x).1 hx).2⟩
  refine ⟨I.gnd, fun x => ⟨fun hx => ?_, ?_⟩, fun x i hg hh => ?_, fun x i j h1 h2 => ?_, fun i h b hi hd => ?_⟩
  · cases hp : pl x with
    | none => exact Or.inl ((I.gone x).2 ⟨hx, hp⟩)
    | some h =>
      obtain ⟨b, hb⟩ := Option.ne_none_iff_exists'.1 (I.live x h hx hp)
      obtain ⟨a1, a2, a3, a4⟩ := I.blk h b hb
      exact Or.inr ⟨ow h, a1, some h, b, by simp [deref, a2, hb], (a4 x).2 ⟨hx, hp⟩⟩
  · rintro (hx | ⟨i, hi⟩)
    · exact ((I.gone x).1 hx).1
    · obtain ⟨_, _, _, _, hx, _⟩ := hheld x i hi
      exact hx
  · obtain ⟨_, _, _, _, _, hp⟩ := hheld x i hh
    rw [((I.gone x).1 hg).2] at hp; cases hp
  · obtain ⟨_, _, _, o1, _, p1⟩ := hheld x i h1
    obtain ⟨_, _, _, o2, _, p2⟩ := hheld x j h2
    rw [p1] at p2; cases p2
    exact o1 ▸ o2
  · obtain ⟨l, hl⟩ := Option.ne_none_iff_exists'.1 hi
    obtain ⟨oh, b', hd', hh, _, _⟩ := has_used I hl
    rw [hd] at hd'; cases hd'
    exact (has_nodup I hh).1

/-- C149. No block ever holds more elements than it has room for. -/
theorem own_fits {k : Kind} {s : St ν} {m : Vals ν} (h : Reach k s m) {a : Nat} {b : Blk ν} (ha : s.heap a = some b) :
    b.el.length ≤ b.cap := by
  have : Fits s.heap := by
    clear ha
    induction h with
    | start => intro h b e; cases e
    | step _ _ _ h1 _ ih => exact fits_step ih h1
  exact this a b ha

/-- C149. No memory is lost: every live block belongs to exactly one variable in use. -/
theorem own_no_leak {k : Kind} {s : St ν} {m : Vals ν} (h : Reach k s m) {a : Nat} (ha : s.heap a ≠ none) :
    ∃! i, m i ≠ none ∧ s.var i = .ptr a := by
  obtain ⟨pl, ow, I⟩ := reach_inv h
  obtain ⟨b, hb⟩ := Option.ne_none_iff_exists'.1 ha
  obtain ⟨a1, a2, _⟩ := I.blk a b hb
  refine ⟨ow a, ⟨a1, a2⟩, ?_⟩
  rintro j ⟨hj, hv⟩
  obtain ⟨l, hl⟩ := Option.ne_none_iff_exists'.1 hj
  rcases I.var j l hl with ⟨h1, _⟩ | ⟨h2, b2, h3, _, ho, _⟩
  · rw [hv] at h1; cases h1
  · rw [hv] at h3; cases h3; exact ho.symm

/-- C149. When the program has dropped all its variables, all memory has been freed and the elements that left their
containers are all elements ever made, each once. -/
theorem own_end {k : Kind} {s : St ν} {m : Vals ν} (h : Reach k s m) (hm : ∀ i, m i = none) :
    (∀ a, s.heap a = none) ∧ (s.gone.map (·.1)).Perm (List.range s.next) := by
  constructor
  · intro a
    by_contra ha
    obtain ⟨i, ⟨hi, _⟩, _⟩ := own_no_leak h ha
    exact hi (hm i)
  · obtain ⟨h1, h2, _⟩ := own_once h
    refine (List.perm_ext_iff_of_nodup h1 List.nodup_range).2 fun x => ?_
    rw [List.mem_range, h2 x]
    constructor
    · exact Or.inl
    · rintro (hx | ⟨i, hi, _⟩)
      · exact hx
      · exact absurd (hm i) hi

/-- C149 (refutation for stacks with a fixed capacity). `_move` of such a stack leaves the elements in the source as
well: dropping both variables, as the other containers require, destroys every element twice; for any capacity. -/
theorem fixed_move_destroys_twice (c : Nat) (v : ν) :
    let s0 : Inl ν := ⟨fun _ => [], 0, []⟩
    let s1 := (s0.push (c + 1) 0 v).1
    let s2 := s1.move 1 0
    s2.var 0 = s2.var 1 ∧ ((s2.drop 0).drop 1).next = 1 ∧ ((s2.drop 0).drop 1).gone = [0, 0] := by
  simp [Inl.push, Inl.move, Inl.drop, set]

/-! Instances: a vec is filled, cloned, the original changed, then the clone taken over by a third variable. -/

/-- The program of the examples. -/
def prog : List (Op Nat) :=
  [.init 0, .insert 0 0 10 (some (7, 4)), .insert 0 1 20 none, .clone 1 0 (some (8, 2)), .insert 0 1 30 none,
   .init 2, .insert 2 0 40 (some (9, 4)), .take 2 1, .copy 1 0 (some (9, 3)), .swap 0 1, .remove 0 0 false, .drop 0, .drop 1, .drop 2]

example : ((prog.take 10).foldlM (fun s op => (step .vec s op).map (·.1)) start).map (fun s => (values s 0, values s 1, values s 2, s.gone)) =
    some (some [10, 30, 20], some [10, 30, 20], some [10, 20], [(5, true)]) := rfl

example : (prog.foldlM (fun s op => (step .vec s op).map (·.1)) start).map (fun s => (s.next, s.gone.map (·.1))) =
    some (9, [5, 6, 8, 7, 1, 4, 0, 3, 2]) := by decide

example : (prog.foldlM (fun s op => (step .other s op).map (·.1)) start).map (fun s => (s.next, s.gone.map (·.1))) =
    some (9, [5, 6, 8, 7, 1, 4, 0, 3, 2]) := by decide

/-- The first calls of the program are reachable, for both kinds of containers. -/
example (k : Kind) : ∃ (s : St Nat) (m : Vals Nat), Reach k s m ∧ m 0 = some [10] ∧ values s 0 = some [10] ∧ Legal m (.clone 1 0 (some (8, 2))) ∧
    Granted k s (.clone 1 0 (some (8, 2))) := by
  have r0 := Reach.start (ν := Nat) (k := k)
  have r1 := r0.step (op := .init 0) (by simp [Legal, Spec.step]) (Or.inr trivial) rfl rfl
  have r2 := r1.step (op := .insert 0 0 10 (some (7, 4))) (by simp [Legal, Spec.step, set]) (Or.inr trivial) rfl rfl
  refine ⟨_, _, r2, rfl, rfl, by simp [Legal, Spec.step, set], Or.inr ?_⟩
  intro h b hd
  change some (some 7, (⟨4, [(0, 10)]⟩ : Blk Nat)) = some (h, b) at hd
  cases hd
  decide

end Verif.Own
