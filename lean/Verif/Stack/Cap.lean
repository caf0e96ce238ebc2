import Verif.Stack.Lemmas
import Mathlib.Tactic.Common
/- What the growing `stack` asks of the allocator: specification and lemmas for C134 and C135. -/
namespace Verif.Stack
variable {α : Type}

namespace Spec

/-- The same call, with an allocator that has nothing to give. -/
def starved : Op α → Op α
  | .push _ x => .push false x
  | .append _ arr => .append false arr
  | .reserve _ n => .reserve false n
  | .shrinkToFit _ => .shrinkToFit false
  | o => o

/-- Does the call need the allocator? It does when it fails without. -/
def asks (s : Stack α) (o : Op α) : Bool :=
  match step none s (starved o) with
  | some (_, ok, _) => !ok
  | none => true

/-- The calls that are not about the capacity. -/
def ordinary : Op α → Prop
  | .reserve _ _ | .shrinkToFit _ => False
  | _ => True

/-- The elements a successful call adds, and one for an `append`. -/
def credit : Op α → Nat
  | .push _ _ => 1
  | .append _ arr => arr.length + 1
  | _ => 0

/-- Calls that fit in a stack reserved for `n` elements; an `append` has to leave one place free. -/
def fits (n : Nat) (l : List α) : Op α → Prop
  | .push _ _ => l.length < n
  | .append _ arr => l.length + arr.length < n
  | _ => True

instance (n : Nat) (l : List α) (o : Op α) : Decidable (fits n l o) :=
  match o with
  | .push _ _ | .append _ _ => inferInstanceAs (Decidable (_ < _))
  | .pop | .pull | .reserve _ _ | .shrinkToFit _ | .clear => inferInstanceAs (Decidable True)

/-- Histories of ordinary calls from `s`, `l` on that fit in room for `n` elements, whatever the
allocator does. -/
inductive Within (n : Nat) (s : Stack α) (l : List α) : Stack α → List α → Prop
  | start : Within n s l s l
  | call {t t' : Stack α} {k : List α} {o : Op α} {ok : Bool} {x : Option α} : Within n s l t k → valid k o →
      ordinary o → fits n k o → step none t o = some (t', ok, x) → Within n s l t' (after k ok o)

/-- Histories of ordinary calls on a fresh stack: `moved` counts the elements in the stack each time a
call went to the allocator, `added` the elements added and the calls of `append`. -/
inductive Grown : Stack α → List α → Nat → Nat → Prop
  | init : Grown (init none) [] 0 0
  | call {s s' : Stack α} {l : List α} {moved added : Nat} {o : Op α} {ok : Bool} {x : Option α} :
      Grown s l moved added → valid l o → ordinary o → step none s o = some (s', ok, x) →
      Grown s' (after l ok o) (moved + if asks s o ∧ ok then l.length else 0) (added + if ok then credit o else 0)

end Spec
open Spec

/-- A call with room to spare does not depend on the allocator, succeeds and keeps the capacity. -/
theorem room {s : Stack α} {l : List α} (h : Inv none s l) {o : Op α} (hv : valid l o) (ho : ordinary o)
    (hf : fits s.cap l o) :
    ∃ s' x, step none s o = some (s', true, x) ∧ step none s (starved o) = some (s', true, x) ∧ s'.cap = s.cap := by
  obtain ⟨s', r, x, e1, e2, e3, e4, e5⟩ := step_spec h o hv
  have hz := h.rep.size
  cases o with
  | push ok y =>
    have hne : ¬ s.size = capacity none s := by simp only [fits] at hf; simp only [capacity]; omega
    have hok : step none s (.push false y) = step none s (.push ok y) := by simp only [step, push, if_neg hne]
    have e := e1
    simp only [step, push, if_neg hne, Option.bind_eq_bind, Option.bind_eq_some_iff] at e1
    obtain ⟨⟨w, q⟩, ⟨b, -, b', -, hh⟩, hh'⟩ := e1
    cases hh; cases hh'
    exact ⟨_, _, e, by simp only [starved]; rw [hok]; exact e, rfl⟩
  | append ok arr =>
    have hne : ¬ s.size + arr.length ≥ capacity none s := by simp only [fits] at hf; simp only [capacity]; omega
    have hok : step none s (.append false arr) = step none s (.append ok arr) := by simp only [step, append, if_neg hne]
    have e := e1
    simp only [step, append, if_neg hne, Option.bind_eq_bind, Option.bind_eq_some_iff] at e1
    obtain ⟨⟨w, q⟩, ⟨b, -, b', -, hh⟩, hh'⟩ := e1
    cases hh; cases hh'
    exact ⟨_, _, e, by simp only [starved]; rw [hok]; exact e, rfl⟩
  | pop =>
    have e := e1
    simp only [step, pop, Option.bind_eq_bind, Option.bind_eq_some_iff] at e1
    obtain ⟨w, ⟨-, -, b, -, ⟨x, b'⟩, -, hh⟩, hh'⟩ := e1
    cases hh; cases hh'; exact ⟨_, _, e, e, rfl⟩
  | pull =>
    have e := e1
    simp only [step, pull, Option.bind_eq_bind, Option.bind_eq_some_iff] at e1
    obtain ⟨⟨w, y⟩, ⟨-, -, b, -, ⟨x, b'⟩, -, hh⟩, hh'⟩ := e1
    cases hh; cases hh'; exact ⟨_, _, e, e, rfl⟩
  | clear =>
    have e := e1
    simp only [step, clear, Option.bind_eq_bind, Option.bind_eq_some_iff] at e1
    obtain ⟨w, hh, hh'⟩ := e1
    cases hh'
    refine ⟨_, _, e, e, ?_⟩
    split at hh
    · cases hh; rfl
    · simp only [Option.bind_eq_some_iff] at hh
      obtain ⟨b, -, ⟨b', lg⟩, -, hh⟩ := hh
      cases hh; rfl
  | reserve _ _ => exact ho.elim
  | shrinkToFit _ => exact ho.elim

theorem within_inv {n : Nat} {s t : Stack α} {l k : List α} (h : Inv none s l) (hn : n ≤ s.cap) (hw : Within n s l t k) :
    Inv none t k ∧ t.cap = s.cap := by
  induction hw with
  | start => exact ⟨h, rfl⟩
  | @call w w' k o ok x _ hv ho hf hs ih =>
    obtain ⟨i1, i2⟩ := ih
    obtain ⟨u, q, e1, -, e4⟩ := room i1 hv ho (by cases o <;> simp only [fits] at hf ⊢ <;> omega)
    rw [hs] at e1; cases e1
    obtain ⟨u, q, y, e1, e2, -⟩ := step_spec i1 o hv
    rw [hs] at e1; cases e1
    exact ⟨e2, by rw [e4, i2]⟩

/-- What growing does. -/
theorem grows {s s' : Stack α} {l : List α} (h : Inv none s l) {o : Op α} {x : Option α} (hv : valid l o)
    (ho : ordinary o) (hs : step none s o = some (s', true, x)) :
    (fits s.cap l o ∧ s'.cap = s.cap) ∨
    (∃ ok y, o = .push ok y ∧ l.length = s.cap ∧ s'.cap = l.length * 3 / 2 + 4) ∨
    (∃ ok arr, o = .append ok arr ∧ s.cap ≤ l.length + arr.length ∧ l.length * 3 / 2 + arr.length ≤ s'.cap ∧
      s.cap ≤ s'.cap) := by
  have hz := h.rep.size
  have hle := h.rep.le_cap
  by_cases hf : fits s.cap l o
  · obtain ⟨_, _, f1, -, f4⟩ := room h hv ho hf
    rw [hs] at f1; cases f1; exact .inl ⟨hf, f4⟩
  cases o with
  | push ok y =>
    have heq : s.size = capacity none s := by simp only [fits] at hf; simp only [capacity]; omega
    have hcp : capacity none s = s.cap := rfl
    refine .inr (.inl ⟨ok, y, rfl, by omega, ?_⟩)
    have hc : s.size * 3 / 2 + 4 > s.cap ∨ (s.size * 3 / 2 + 4 ≠ 0 ∧ s.size * 3 / 2 + 4 = s.size) := by left; omega
    simp only [step, push, if_pos heq, reserve, if_pos hc] at hs
    cases ok with
    | false => simp at hs
    | true =>
      simp only [if_true, Option.bind_eq_bind, Option.bind_eq_some_iff] at hs
      obtain ⟨⟨w, q⟩, ⟨b, -, b', -, hh⟩, hh'⟩ := hs
      cases hh; cases hh'; simp only; omega
  | append ok arr =>
    have hge : s.size + arr.length ≥ capacity none s := by simp only [fits] at hf; simp only [capacity]; omega
    have hcp : capacity none s = s.cap := rfl
    refine .inr (.inr ⟨ok, arr, rfl, by omega, ?_⟩)
    obtain ⟨r1, r2, r3, r4⟩ := reserve_spec h ok (s.size * 3 / 2 + arr.length)
    have hmono : s.cap ≤ (reserve none ok s (s.size * 3 / 2 + arr.length)).1.cap := by
      simp only [reserve]
      split
      · split
        · simp only; omega
        · exact Nat.le_refl _
      · exact Nat.le_refl _
    simp only [step, append, if_pos hge, Option.bind_eq_bind, Option.bind_eq_some_iff] at hs
    obtain ⟨⟨w, q⟩, hm, hh''⟩ := hs
    revert hm r3 hmono
    generalize reserve none ok s (s.size * 3 / 2 + arr.length) = R
    obtain ⟨R1, R2⟩ := R
    intro r3 hmono hm
    cases R2 with
    | false => simp only at hm; cases hm; cases hh''
    | true =>
      simp only [Option.bind_eq_some_iff] at hm
      obtain ⟨b, -, b', -, hh⟩ := hm
      cases hh; cases hh''
      have := (r3 rfl).1
      simp only at this hmono ⊢
      omega
  | pop => exact absurd trivial hf
  | pull => exact absurd trivial hf
  | clear => exact absurd trivial hf
  | reserve _ _ => exact ho.elim
  | shrinkToFit _ => exact ho.elim

/-- A call that goes to the allocator had no room. -/
theorem asks_full {s : Stack α} {l : List α} (h : Inv none s l) {o : Op α} (hv : valid l o) (ho : ordinary o)
    (ha : asks s o = true) : ¬ fits s.cap l o := by
  intro hf
  obtain ⟨u, q, e1, e2, e3⟩ := room h hv ho hf
  simp [asks, e2] at ha

theorem grown_bound {s : Stack α} {l : List α} {m a : Nat} (h : Grown s l m a) :
    Inv none s l ∧ m + (3 * l.length - 2 * s.cap) ≤ 3 * a := by
  induction h with
  | init => exact ⟨inv_init none (by simp), by simp [init]⟩
  | @call s s' l m a o ok x _ hv ho hs ih =>
    obtain ⟨i1, i2⟩ := ih
    obtain ⟨u, q, y, e1, e2, e3, e4, e5⟩ := step_spec i1 o hv
    rw [hs] at e1; cases e1
    refine ⟨e2, ?_⟩
    have hle := i1.rep.le_cap
    cases ok with
    | false =>
      have := e5 rfl
      subst this
      have hl : after l false o = l := by
        by_contra hne
        cases o with
        | push => exact hne rfl
        | append => exact hne rfl
        | reserve => exact ho.elim
        | shrinkToFit => exact ho.elim
        | pop => obtain ⟨_, _, f1, -⟩ := room i1 hv ho trivial; rw [hs] at f1; cases f1
        | pull => obtain ⟨_, _, f1, -⟩ := room i1 hv ho trivial; rw [hs] at f1; cases f1
        | clear => obtain ⟨_, _, f1, -⟩ := room i1 hv ho trivial; rw [hs] at f1; cases f1
      rw [hl]; simpa using i2
    | true =>
      simp only [and_true, if_true]
      have hlen : (after l true o).length ≤ l.length + credit o := by
        cases o with
        | pop => simp [after, credit]
        | pull => simp [after, credit]
        | _ => simp [after, credit] <;> omega
      rcases grows i1 hv ho hs with ⟨hf, hcap⟩ | ⟨ok, x, rfl, g1, g2⟩ | ⟨ok, arr, rfl, g1, g2, g3⟩
      · rw [if_neg fun ha => asks_full i1 hv ho ha hf, hcap]
        omega
      · simp only [after, if_true, List.length_append, List.length_singleton, credit]
        split <;> omega
      · simp only [after, if_true, List.length_append, credit]
        split <;> omega

end Verif.Stack
