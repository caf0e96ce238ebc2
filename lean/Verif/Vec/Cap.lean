import Verif.Vec.Lemmas
import Mathlib.Tactic.Common
/- What `vec` asks of the allocator: specification and lemmas for C134 and C135. -/
namespace Verif.Vec
variable {α : Type}

namespace Spec

/-- The same call, with an allocator that has nothing to give. -/
def starved : Op α → Op α
  | .push _ x => .push false x
  | .insertN _ idx arr => .insertN false idx arr
  | .resize _ len x => .resize false len x
  | .reserve _ cap => .reserve false cap
  | .shrinkToFit _ => .shrinkToFit false
  | o => o

/-- Does the call need the allocator? It does when it fails without. -/
def asks (v : Vec α) (o : Op α) : Bool :=
  match step v (starved o) with
  | some (_, r) => !r.ok
  | none => true

/-- The calls that are not about the capacity. -/
def ordinary : Op α → Prop
  | .resize _ _ _ | .reserve _ _ | .shrinkToFit _ => False
  | _ => True

/-- The elements a successful call adds, and one for an insertion. -/
def credit : Op α → Nat
  | .push _ _ => 1
  | .insertN _ _ arr => arr.length + 1
  | _ => 0

/-- Calls that fit in a vec reserved for `n` elements; an insertion has to leave one place free. -/
def fits (n : Nat) (l : List α) : Op α → Prop
  | .push _ _ => l.length < n
  | .insertN _ _ arr => l.length + arr.length < n
  | _ => True

instance (n : Nat) (l : List α) (o : Op α) : Decidable (fits n l o) :=
  match o with
  | .push _ _ | .insertN _ _ _ => inferInstanceAs (Decidable (_ < _))
  | .pop | .pull | .eraseN _ _ | .resize _ _ _ | .reserve _ _ | .shrinkToFit _ | .clear | .replace _ _ => inferInstanceAs (Decidable True)

/-- Histories of ordinary calls from `v`, `l` on that fit in room for `n` elements, whatever the
allocator does. -/
inductive Within (n : Nat) (v : Vec α) (l : List α) : Vec α → List α → Prop
  | start : Within n v l v l
  | call {w w' : Vec α} {k : List α} {o : Op α} {r : Reply α} : Within n v l w k → valid k o → ordinary o →
      fits n k o → step w o = some (w', r) → Within n v l w' (after k r.ok o)

/-- Histories of ordinary calls on a fresh vec: `moved` counts the elements in the vec each time a
call went to the allocator, `added` the elements added and the insertions made. -/
inductive Grown : Vec α → List α → Nat → Nat → Prop
  | init : Grown init [] 0 0
  | call {v v' : Vec α} {l : List α} {moved added : Nat} {o : Op α} {r : Reply α} :
      Grown v l moved added → valid l o → ordinary o → step v o = some (v', r) →
      Grown v' (after l r.ok o) (moved + if asks v o ∧ r.ok then l.length else 0)
        (added + if r.ok then credit o else 0)

end Spec
open Spec

theorem eraseN_cap {v v' : Vec α} {idx n : Nat} {r} (h : eraseN v idx n = some (v', r)) : v'.cap = v.cap := by
  unfold eraseN at h
  simp only [Option.bind_eq_bind, Option.bind_eq_some_iff, Option.some.injEq, Prod.mk.injEq] at h
  obtain ⟨-, -, b, -, ⟨b2, lg⟩, -, b3, -, rfl, -⟩ := h
  rfl

/-- A call with room to spare does not depend on the allocator, succeeds and keeps the capacity. -/
theorem room {v : Vec α} {l : List α} (h : Rep v l) {o : Op α} (hv : valid l o) (ho : ordinary o)
    (hf : fits v.cap l o) :
    ∃ v' r, step v o = some (v', r) ∧ step v (starved o) = some (v', r) ∧ r.ok = true ∧ v'.cap = v.cap := by
  obtain ⟨v', r, e1, e2, e3, e4, e5⟩ := step_spec h o hv
  have hz := h.size
  cases o with
  | push ok x =>
    have hne : ¬ v.size = v.cap := by simp only [fits] at hf; omega
    have hok : step v (.push false x) = step v (.push ok x) := by simp only [step, push, if_neg hne]
    refine ⟨v', r, e1, by simp only [starved]; rw [hok]; exact e1, ?_⟩
    simp only [step, push, if_neg hne, Option.bind_eq_bind, Option.bind_eq_some_iff] at e1
    obtain ⟨⟨w, q⟩, ⟨b, -, b', -, hh⟩, hh'⟩ := e1
    cases hh; cases hh'; exact ⟨rfl, rfl⟩
  | insertN ok idx arr =>
    have hne : ¬ v.size + arr.length ≥ v.cap := by simp only [fits] at hf; omega
    have hok : step v (.insertN false idx arr) = step v (.insertN ok idx arr) := by
      simp only [step, insertN, insertUninit, if_neg hne]
    refine ⟨v', r, e1, by simp only [starved]; rw [hok]; exact e1, ?_⟩
    simp only [step, insertN, insertUninit, if_neg hne, Option.bind_eq_bind, Option.bind_eq_some_iff] at e1
    obtain ⟨⟨w, q⟩, ⟨⟨w1, q1⟩, ⟨-, -, b, -, b', -, hh⟩, hh'⟩, hh''⟩ := e1
    cases hh
    simp only [if_true, Option.bind_eq_some_iff] at hh'
    obtain ⟨b2, -, b3, -, hh'⟩ := hh'
    cases hh'; cases hh''; exact ⟨rfl, rfl⟩
  | pop =>
    refine ⟨v', r, e1, e1, ?_⟩
    simp only [step, pop, Option.bind_eq_bind, Option.bind_eq_some_iff] at e1
    obtain ⟨w, ⟨-, -, b, -, ⟨x, b'⟩, -, hh⟩, hh'⟩ := e1
    cases hh; cases hh'; exact ⟨rfl, rfl⟩
  | pull =>
    refine ⟨v', r, e1, e1, ?_⟩
    simp only [step, pull, Option.bind_eq_bind, Option.bind_eq_some_iff] at e1
    obtain ⟨⟨w, y⟩, ⟨-, -, b, -, ⟨x, b'⟩, -, hh⟩, hh'⟩ := e1
    cases hh; cases hh'; exact ⟨rfl, rfl⟩
  | eraseN idx n =>
    refine ⟨v', r, e1, e1, ?_⟩
    simp only [step, Option.bind_eq_bind, Option.bind_eq_some_iff] at e1
    obtain ⟨⟨w, y⟩, hh, hh'⟩ := e1
    cases hh'; exact ⟨rfl, eraseN_cap hh⟩
  | clear =>
    refine ⟨v', r, e1, e1, ?_⟩
    simp only [step, clear, Option.bind_eq_bind, Option.bind_eq_some_iff] at e1
    obtain ⟨w, hh, hh'⟩ := e1
    cases hh'
    refine ⟨rfl, ?_⟩
    split at hh
    · cases hh; rfl
    · simp only [Option.bind_eq_some_iff] at hh
      obtain ⟨b, -, ⟨b', lg⟩, -, hh⟩ := hh
      cases hh; rfl
  | replace i x =>
    refine ⟨v', r, e1, e1, ?_⟩
    simp only [step, setAt, Option.bind_eq_bind, Option.bind_eq_some_iff] at e1
    obtain ⟨y, -, w, ⟨-, -, b, -, b', -, hh⟩, hh'⟩ := e1
    cases hh; cases hh'; exact ⟨rfl, rfl⟩
  | resize _ _ _ => exact ho.elim
  | reserve _ _ => exact ho.elim
  | shrinkToFit _ => exact ho.elim

theorem within_rep {n : Nat} {v w : Vec α} {l k : List α} (h : Rep v l) (hn : n ≤ v.cap) (hw : Within n v l w k) :
    Rep w k ∧ w.cap = v.cap := by
  induction hw with
  | start => exact ⟨h, rfl⟩
  | @call w w' k o r _ hv ho hf hs ih =>
    obtain ⟨i1, i2⟩ := ih
    obtain ⟨u, q, e1, -, e3, e4⟩ := room i1 hv ho (by cases o <;> simp only [fits] at hf ⊢ <;> omega)
    rw [hs] at e1; cases e1
    obtain ⟨u, q, e1, e2, -⟩ := step_spec i1 o hv
    rw [hs] at e1; cases e1
    exact ⟨e2, by rw [e4, i2]⟩

/-- What growing does. -/
theorem grows {v v' : Vec α} {l : List α} (h : Rep v l) {o : Op α} {r : Reply α} (hv : valid l o) (ho : ordinary o)
    (hs : step v o = some (v', r)) (hok : r.ok = true) (ha : asks v o = true) :
    (∃ ok x, o = .push ok x ∧ l.length = v.cap ∧ v'.cap = l.length * 2 + 4) ∨
    (∃ ok idx arr, o = .insertN ok idx arr ∧ v.cap ≤ l.length + arr.length ∧ l.length * 3 / 2 + arr.length ≤ v'.cap ∧
      v.cap ≤ v'.cap) := by
  have hz := h.size
  have hcontra : fits v.cap l o → False := by
    intro hf
    obtain ⟨u, q, e1, e2, e3, e4⟩ := room h hv ho hf
    simp [asks, e2, e3] at ha
  have hle := h.le_cap
  cases o with
  | push ok x =>
    have heq : v.size = v.cap := by
      by_contra hne
      exact hcontra (by simp only [fits]; omega)
    refine .inl ⟨ok, x, rfl, by omega, ?_⟩
    simp only [step, push, if_pos heq, reserve] at hs
    rw [if_pos (by left; omega)] at hs
    cases ok with
    | false => simp at hs; rw [← hs.2] at hok; simp at hok
    | true =>
      simp only [if_true, Option.bind_eq_bind, Option.bind_eq_some_iff] at hs
      obtain ⟨⟨w, q⟩, ⟨b, -, b', -, hh⟩, hh'⟩ := hs
      cases hh; cases hh'; simp only; omega
  | insertN ok idx arr =>
    have hge : v.size + arr.length ≥ v.cap := by
      by_contra hne
      exact hcontra (by simp only [fits]; omega)
    refine .inr ⟨ok, idx, arr, rfl, by omega, ?_⟩
    obtain ⟨r1, r2, r3, r4, r5⟩ := reserve_spec h ok (v.size * 3 / 2 + arr.length)
    have hmono : v.cap ≤ (reserve ok v (v.size * 3 / 2 + arr.length)).1.cap := by
      unfold reserve
      split
      · split
        · simp only; omega
        · exact Nat.le_refl _
      · exact Nat.le_refl _
    simp only [step, insertN, insertUninit, if_pos hge, Option.bind_eq_bind, Option.bind_eq_some_iff] at hs
    obtain ⟨⟨w, q⟩, ⟨⟨w1, q1⟩, hm, hh'⟩, hh''⟩ := hs
    revert hm r4 hmono
    generalize reserve ok v (v.size * 3 / 2 + arr.length) = R
    obtain ⟨R1, R2⟩ := R
    intro r4 hmono hm
    cases R2 with
    | false =>
      simp only at hm; cases hm
      simp only [Bool.false_eq_true, if_false] at hh'
      cases hh'; cases hh''; simp at hok
    | true =>
      simp only [Option.bind_eq_some_iff] at hm
      obtain ⟨-, -, b, -, b', -, hh⟩ := hm
      cases hh
      simp only [if_true, Option.bind_eq_some_iff] at hh'
      obtain ⟨b2, -, b3, -, hh'⟩ := hh'
      cases hh'; cases hh''
      have := (r4 rfl).1
      simp only at this hmono ⊢
      omega
  | pop => exact (hcontra trivial).elim
  | pull => exact (hcontra trivial).elim
  | eraseN idx n => exact (hcontra trivial).elim
  | clear => exact (hcontra trivial).elim
  | replace i x => exact (hcontra trivial).elim
  | resize _ _ _ => exact ho.elim
  | reserve _ _ => exact ho.elim
  | shrinkToFit _ => exact ho.elim

theorem unasked {v v' : Vec α} {l : List α} (h : Rep v l) {o : Op α} {r : Reply α} (ho : ordinary o)
    (hs : step v o = some (v', r)) (ha : ¬ asks v o = true) (hf : ¬ fits v.cap l o) : v'.cap = v.cap := by
  have hz := h.size
  have hle := h.le_cap
  cases o with
  | push ok x =>
    have heq : v.size = v.cap := by simp only [fits] at hf; omega
    have hc : v.size * 2 + 4 > v.cap ∨ (v.size * 2 + 4 ≠ 0 ∧ v.size * 2 + 4 = v.size) := by left; omega
    exact absurd (by simp only [asks, starved, step, push, if_pos heq, reserve, if_pos hc]; rfl) ha
  | insertN ok idx arr =>
    have hge : v.size + arr.length ≥ v.cap := by simp only [fits] at hf; omega
    by_cases hc : v.size * 3 / 2 + arr.length > v.cap ∨
        (v.size * 3 / 2 + arr.length ≠ 0 ∧ v.size * 3 / 2 + arr.length = v.size)
    · exact absurd (by simp only [asks, starved, step, insertN, insertUninit, if_pos hge, reserve, if_pos hc]; rfl) ha
    · simp only [step, insertN, insertUninit, if_pos hge, reserve, if_neg hc, Option.bind_eq_bind, Option.bind_eq_some_iff] at hs
      obtain ⟨⟨w, q⟩, ⟨⟨w1, q1⟩, hm, hh'⟩, hh''⟩ := hs
      have hw : w1.cap = v.cap := by
        cases hd : v.data.isSome with
        | false => simp only [hd] at hm; cases hm; rfl
        | true =>
          simp only [hd, Option.bind_eq_some_iff] at hm
          obtain ⟨-, -, b, -, b', -, hh⟩ := hm
          cases hh; rfl
      rw [← hw]
      cases q1 with
      | false => simp only [Bool.false_eq_true, if_false] at hh'; cases hh'; cases hh''; rfl
      | true =>
        simp only [if_true, Option.bind_eq_some_iff] at hh'
        obtain ⟨b2, -, b3, -, hh'⟩ := hh'
        cases hh'; cases hh''; rfl
  | resize _ _ _ => exact ho.elim
  | reserve _ _ => exact ho.elim
  | shrinkToFit _ => exact ho.elim
  | pop => exact absurd trivial hf
  | pull => exact absurd trivial hf
  | eraseN idx n => exact absurd trivial hf
  | clear => exact absurd trivial hf
  | replace i x => exact absurd trivial hf

theorem grown_bound {v : Vec α} {l : List α} {m a : Nat} (h : Grown v l m a) :
    Rep v l ∧ m + (3 * l.length - 2 * v.cap) ≤ 3 * a := by
  induction h with
  | init => exact ⟨rep_init, by simp [init]⟩
  | @call v v' l m a o r _ hv ho hs ih =>
    obtain ⟨i1, i2⟩ := ih
    obtain ⟨u, q, e1, e2, e3, e4, e5⟩ := step_spec i1 o hv
    rw [hs] at e1; cases e1
    refine ⟨e2, ?_⟩
    have hle := i1.le_cap
    cases hr : r.ok with
    | false =>
      have := (e5 hr).1
      subst this
      have hl : after l false o = l := by
        by_contra hne
        cases o with
        | push => exact hne rfl
        | insertN => exact hne rfl
        | resize => exact ho.elim
        | reserve => exact ho.elim
        | shrinkToFit => exact ho.elim
        | pop => obtain ⟨_, _, f1, -, f3, -⟩ := room i1 hv ho trivial; rw [hs] at f1; cases f1; simp [hr] at f3
        | pull => obtain ⟨_, _, f1, -, f3, -⟩ := room i1 hv ho trivial; rw [hs] at f1; cases f1; simp [hr] at f3
        | eraseN => obtain ⟨_, _, f1, -, f3, -⟩ := room i1 hv ho trivial; rw [hs] at f1; cases f1; simp [hr] at f3
        | clear => obtain ⟨_, _, f1, -, f3, -⟩ := room i1 hv ho trivial; rw [hs] at f1; cases f1; simp [hr] at f3
        | replace => obtain ⟨_, _, f1, -, f3, -⟩ := room i1 hv ho trivial; rw [hs] at f1; cases f1; simp [hr] at f3
      rw [hl]; simpa using i2
    | true =>
      simp only [and_true, if_true]
      by_cases ha : asks v o = true
      · rw [if_pos ha]
        rcases grows i1 hv ho hs hr ha with ⟨ok, x, rfl, g1, g2⟩ | ⟨ok, idx, arr, rfl, g1, g2, g3⟩
        · simp only [after, if_true, List.length_append, List.length_singleton, credit]
          omega
        · have : (after l true (.insertN ok idx arr)).length = l.length + arr.length := by
            have : idx ≤ l.length := hv
            simp [after]; omega
          rw [this]; simp only [credit]
          omega
      · rw [if_neg ha]
        have hcap : v'.cap = v.cap := by
          by_cases hf : fits v.cap l o
          · obtain ⟨_, _, f1, -, -, f4⟩ := room i1 hv ho hf
            rw [hs] at f1; cases f1; exact f4
          · exact unasked i1 ho hs ha hf
        rw [hcap]
        have : (after l true o).length ≤ l.length + credit o := by
          cases o with
          | resize => exact ho.elim
          | _ => simp [after, credit] <;> omega
        omega

end Verif.Vec
