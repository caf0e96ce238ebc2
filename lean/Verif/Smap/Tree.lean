import Verif.Smap.Model
import Mathlib.Tactic.Common
/-
AA trees as values: the trees that the node arrays of `Model` represent, the rotations on them, and
the invariants kept by insertion and removal.
-/
set_option linter.unusedSimpArgs false
namespace Verif.Smap

/-- A tree whose nodes carry their array index, level and entry. -/
inductive T (κ ν : Type) where
  | nil
  | node (i lv : Nat) (l : T κ ν) (e : Option (κ × ν)) (r : T κ ν)

namespace T
variable {κ ν : Type}

def idx : T κ ν → Nat
  | nil => 0
  | node i _ _ _ _ => i

def lev : T κ ν → Nat
  | nil => 0
  | node _ lv _ _ _ => lv

def left : T κ ν → T κ ν
  | nil => nil
  | node _ _ l _ _ => l

def right : T κ ν → T κ ν
  | nil => nil
  | node _ _ _ _ r => r

/-- Index and entry of the nodes in order. -/
def lab : T κ ν → List (Nat × Option (κ × ν))
  | nil => []
  | node i _ l e r => lab l ++ (i, e) :: lab r

def ids (t : T κ ν) : List Nat := (lab t).map Prod.fst

@[simp] theorem ids_nil : ids (nil : T κ ν) = [] := rfl
@[simp] theorem ids_node (i lv l e r) : ids (node i lv l e r : T κ ν) = ids l ++ i :: ids r := by
  simp [ids, lab]

def height : T κ ν → Nat
  | nil => 0
  | node _ _ l _ r => max (height l) (height r) + 1

@[simp] theorem idx_nil : idx (nil : T κ ν) = 0 := rfl
@[simp] theorem idx_node (i lv l e r) : idx (node i lv l e r : T κ ν) = i := rfl
@[simp] theorem lev_nil : lev (nil : T κ ν) = 0 := rfl
@[simp] theorem lev_node (i lv l e r) : lev (node i lv l e r : T κ ν) = lv := rfl
@[simp] theorem right_nil : right (nil : T κ ν) = nil := rfl
@[simp] theorem right_node (i lv l e r) : right (node i lv l e r : T κ ν) = r := rfl

/-- The right child is on the same level. -/
def hr : T κ ν → Prop
  | nil => False
  | node _ lv _ _ r => lev r = lv

theorem hr_nil : hr (nil : T κ ν) = False := rfl
theorem hr_node (i lv l e r) : hr (node i lv l e r : T κ ν) = (lev r = lv) := rfl

/-- The AA tree invariant. -/
def AA : T κ ν → Prop
  | nil => True
  | node _ lv l _ r => lev l + 1 = lv ∧ (lev r + 1 = lv ∨ (lev r = lv ∧ ¬ hr r)) ∧ AA l ∧ AA r

/-- Every level is positive. -/
def Pos : T κ ν → Prop
  | nil => True
  | node _ lv l _ r => 0 < lv ∧ Pos l ∧ Pos r

theorem AA.pos : ∀ {t : T κ ν}, AA t → Pos t
  | nil, _ => trivial
  | node _ _ _ _ _, h => ⟨by have := h.1; omega, h.2.2.1.pos, h.2.2.2.pos⟩

def skewT : T κ ν → T κ ν
  | node i lv (node il ll a el b) e r =>
    if ll = lv then node il ll a el (node i lv b e r) else node i lv (node il ll a el b) e r
  | t => t

def splitT : T κ ν → T κ ν
  | node i lv l e (node ir lr b er (node j lj x ej y)) =>
    if lj = lv then node ir (lr + 1) (node i lv l e b) er (node j lj x ej y)
    else node i lv l e (node ir lr b er (node j lj x ej y))
  | t => t

@[simp] theorem lab_skewT (t : T κ ν) : lab (skewT t) = lab t := by
  unfold skewT; split
  · split <;> simp [lab]
  · rfl

@[simp] theorem lab_splitT (t : T κ ν) : lab (splitT t) = lab t := by
  unfold splitT; split
  · split <;> simp [lab]
  · rfl

@[simp] theorem ids_skewT (t : T κ ν) : ids (skewT t) = ids t := by simp [ids]
@[simp] theorem ids_splitT (t : T κ ν) : ids (splitT t) = ids t := by simp [ids]

theorem skewT_of_lt {i lv l e r} (h : lev l ≠ lv) : skewT (node i lv l e r : T κ ν) = node i lv l e r := by
  cases l with
  | nil => rfl
  | node => simp only [skewT]; rw [if_neg (by exact h)]

theorem splitT_of_lt {i lv l e r} (h : lev (right r) ≠ lv) :
    splitT (node i lv l e r : T κ ν) = node i lv l e r := by
  cases r with
  | nil => rfl
  | node ir lr b er rr =>
    cases rr with
    | nil => rfl
    | node => simp only [splitT]; rw [if_neg (by exact h)]

theorem lev_pos {t : T κ ν} (h : AA t) (h' : t ≠ nil) : 0 < lev t := by
  cases t with
  | nil => exact absurd rfl h'
  | node => have := h.1; simp only [lev_nil, lev_node]; omega

theorem eq_nil_of_lev {t : T κ ν} (h : AA t) (h' : lev t = 0) : t = nil := by
  by_contra hn
  have := lev_pos h hn
  omega

theorem lev_right_le {t : T κ ν} (h : AA t) : lev (right t) ≤ lev t := by
  cases t with
  | nil => simp [right_nil, right_node, lev_nil, lev_node]
  | node i lv l e r =>
    simp only [right_nil, right_node, lev_nil, lev_node]
    rcases h.2.1 with h | h <;> omega

theorem lev_right_lt {t : T κ ν} (h : AA t) (hn : t ≠ nil) (hh : ¬ hr t) : lev (right t) + 1 = lev t := by
  cases t with
  | nil => exact absurd rfl hn
  | node i lv l e r =>
    simp only [right_nil, right_node, lev_nil, lev_node]
    rcases h.2.1 with h | h
    · exact h
    · exact absurd h.1 hh

/-! ### insertion -/

/-- Insert the node `i`, still without entry, where the key `k` belongs. -/
def insertT (cmp : κ → κ → Int) (k : κ) (i : Nat) : T κ ν → T κ ν
  | nil => node i 1 nil none nil
  | node j lv l e r =>
    match e with
    | none => node j lv l e r
    | some x =>
      if cmp x.1 k < 0 then splitT (skewT (node j lv l e (insertT cmp k i r)))
      else splitT (skewT (node j lv (insertT cmp k i l) e r))

/-- What insertion does to a tree: the level stays, or a full top level becomes one higher. -/
def Grown (t u : T κ ν) : Prop :=
  AA u ∧ u ≠ nil ∧ (lev u = lev t ∨ (lev u = lev t + 1 ∧ ¬ hr u ∧ (t = nil ∨ hr t)))

theorem grown_left {j lv l e r} {l' : T κ ν} (h : AA (node j lv l e r)) (g : Grown l l') :
    Grown (node j lv l e r) (splitT (skewT (node j lv l' e r))) := by
  obtain ⟨h1, h2, h3, h4⟩ := h
  obtain ⟨g1, gn, g2⟩ := g
  rcases g2 with g2 | ⟨g2, g3, g4⟩
  · rw [skewT_of_lt (by omega)]
    rw [splitT_of_lt]
    · exact ⟨⟨by omega, h2, g1, h4⟩, by simp, Or.inl rfl⟩
    · rcases h2 with h2 | h2
      · have := lev_right_le h4; omega
      · cases r with
        | nil => simp [lev_nil, lev_node] at h2; omega
        | node ir lr b er rr =>
          have := h2.2
          simp only [hr_nil, hr_node, lev_nil, lev_node, right_nil, right_node] at this h2 ⊢
          omega
  · cases l' with
    | nil => exact absurd rfl gn
    | node il ll a el b =>
      simp only [lev_nil, lev_node] at g2
      obtain ⟨a1, a2, a3, a4⟩ := g1
      simp only [hr_nil, hr_node] at g3
      have hb : lev b + 1 = ll := by rcases a2 with a2 | a2; exact a2; exact absurd a2.1 g3
      have e1 : ll = lv := by omega
      simp only [skewT]
      rw [if_pos e1]
      cases r with
      | nil =>
        simp only [lev_nil, lev_node] at h2
        have hlv : lv = 1 := by omega
        rw [splitT_of_lt (by simp [right_nil, right_node, lev_nil, lev_node]; omega)]
        refine ⟨⟨a1, Or.inr ⟨by simp [lev_nil, lev_node, e1], ?_⟩, a3, ?_⟩, by simp, Or.inl ?_⟩
        · simp [hr_nil, hr_node, lev_nil, lev_node]; omega
        · exact ⟨by omega, by simp [lev_nil, lev_node, hlv], a4, trivial⟩
        · simp [lev_nil, lev_node, e1]
      | node ir lr br er rr =>
        by_cases hl : lr = lv
        · have : ¬ hr (node ir lr br er rr) := by
            rcases h2 with h2 | h2
            · simp [lev_nil, lev_node] at h2; omega
            · exact h2.2
          simp only [splitT]
          rw [if_pos (by omega)]
          refine ⟨⟨by simp [lev_nil, lev_node]; omega, Or.inl (by simp [lev_nil, lev_node]; omega), ⟨a1, Or.inl hb, a3, a4⟩, h4⟩, by simp, Or.inr ⟨by simp [lev_nil, lev_node], ?_, Or.inr ?_⟩⟩
          · simp [hr_nil, hr_node, lev_nil, lev_node]; omega
          · simp [hr_nil, hr_node, lev_nil, lev_node, hl]
        · rw [splitT_of_lt (by simp [right_nil, right_node, lev_nil, lev_node]; omega)]
          have h2' : lr + 1 = lv := by
            rcases h2 with h2 | h2
            · exact h2
            · exact absurd h2.1 hl
          refine ⟨⟨a1, Or.inr ⟨by simp [lev_nil, lev_node, e1], ?_⟩, a3, by omega, Or.inl h2', a4, h4⟩, by simp, Or.inl ?_⟩
          · simp [hr_nil, hr_node, lev_nil, lev_node]; omega
          · simp [lev_nil, lev_node, e1]

theorem grown_right {j lv l e r} {r' : T κ ν} (h : AA (node j lv l e r)) (g : Grown r r') :
    Grown (node j lv l e r) (splitT (skewT (node j lv l e r'))) := by
  obtain ⟨h1, h2, h3, h4⟩ := h
  obtain ⟨g1, gn, g2⟩ := g
  rw [skewT_of_lt (by omega)]
  cases r' with
  | nil => exact absurd rfl gn
  | node ir lr b er rr =>
    obtain ⟨a1, a2, a3, a4⟩ := g1
    by_cases hs : lev rr = lv
    · have hl : lr = lv := by
        rcases g2 with g2 | g2
        · simp only [lev_nil, lev_node] at g2
          rcases a2 with a2 | a2 <;> rcases h2 with h2 | h2 <;> omega
        · have := g2.2.1
          simp only [hr_nil, hr_node] at this
          simp only [lev_nil, lev_node] at g2
          rcases a2 with a2 | a2
          · rcases h2 with h2 | h2
            · omega
            · rcases g2.2.2 with g | g
              · subst g; simp [lev_nil, lev_node] at h2; omega
              · exact absurd g h2.2
          · exact absurd a2.1 this
      cases rr with
      | nil => simp [lev_nil, lev_node] at hs; omega
      | node j2 lj x ej y =>
        simp only [splitT]
        have hs' : lj = lv := hs
        rw [if_pos hs']
        have ho : ¬ hr (node j2 lj x ej y) := by
          rcases a2 with a2 | a2
          · simp [lev_nil, lev_node] at a2; omega
          · exact a2.2
        have hrt : lev r = lv := by
          rcases g2 with g2 | g2
          · simp only [lev_nil, lev_node] at g2; omega
          · exfalso
            apply g2.2.1
            simp only [hr_nil, hr_node, lev_nil, lev_node]; omega
        refine ⟨⟨by simp [lev_nil, lev_node]; omega, Or.inl (by simp [lev_nil, lev_node]; omega), ⟨h1, Or.inl (by omega), h3, a3⟩, a4⟩, by simp, Or.inr ⟨by simp [lev_nil, lev_node]; omega, ?_, Or.inr hrt⟩⟩
        simp [hr_nil, hr_node, lev_nil, lev_node]; omega
    · rw [splitT_of_lt (by exact hs)]
      refine ⟨⟨h1, ?_, h3, a1, a2, a3, a4⟩, by simp, Or.inl rfl⟩
      rcases g2 with g2 | g2
      · rcases h2 with h2 | h2
        · left; omega
        · right; refine ⟨by omega, ?_⟩
          simp only [hr_nil, hr_node, lev_nil, lev_node] at g2 ⊢; omega
      · rcases h2 with h2 | h2
        · right; exact ⟨by omega, g2.2.1⟩
        · exfalso
          rcases g2.2.2 with g | g
          · subst g; simp [lev_nil, lev_node] at h2; omega
          · exact h2.2 g

theorem grown_insertT (cmp : κ → κ → Int) (k : κ) (i : Nat) : ∀ {t : T κ ν}, AA t → (∀ x ∈ lab t, x.2.isSome) →
    Grown t (insertT cmp k i t)
  | nil, _, _ => ⟨⟨rfl, Or.inl rfl, trivial, trivial⟩, by simp [insertT], Or.inr ⟨rfl, by simp [insertT, hr_nil, hr_node, lev_nil, lev_node], Or.inl rfl⟩⟩
  | node j lv l none r, _, hf => by
    have := hf (j, none) (by simp [lab])
    simp at this
  | node j lv l (some x) r, h, hf => by
    have hl : ∀ y ∈ lab l, y.2.isSome := fun y hy => hf y (by simp [lab, hy])
    have hr : ∀ y ∈ lab r, y.2.isSome := fun y hy => hf y (by simp [lab, hy])
    simp only [insertT]
    split
    · exact grown_right h (grown_insertT cmp k i h.2.2.2 hr)
    · exact grown_left h (grown_insertT cmp k i h.2.2.1 hl)

/-! ### removal -/

/-- Clamp the level of the root to `lv`. -/
def clamp (lv : Nat) : T κ ν → T κ ν
  | nil => nil
  | node i x l e r => node i (if x > lv then lv else x) l e r

def onRight (f : T κ ν → T κ ν) : T κ ν → T κ ν
  | nil => nil
  | node i lv l e r => node i lv l e (f r)

def rebalT : T κ ν → T κ ν
  | nil => nil
  | node i lv l e r =>
    if lev l + 1 < lv ∨ lev r + 1 < lv then
      onRight splitT (splitT (onRight (onRight skewT) (onRight skewT (skewT (node i (lv - 1) l e (clamp (lv - 1) r))))))
    else node i lv l e r

@[simp] theorem lab_clamp (lv) (t : T κ ν) : lab (clamp lv t) = lab t := by cases t <;> rfl

theorem lab_onRight {f : T κ ν → T κ ν} (hf : ∀ t, lab (f t) = lab t) (t : T κ ν) : lab (onRight f t) = lab t := by
  cases t <;> simp [onRight, lab, hf]

@[simp] theorem lab_rebalT (t : T κ ν) : lab (rebalT t) = lab t := by
  cases t with
  | nil => rfl
  | node i lv l e r =>
    simp only [rebalT]
    split
    · rw [lab_onRight lab_splitT, lab_splitT, lab_onRight (lab_onRight lab_skewT), lab_onRight lab_skewT, lab_skewT]
      simp [lab]
    · rfl

@[simp] theorem ids_rebalT (t : T κ ν) : ids (rebalT t) = ids t := by simp [ids]

theorem rebalT_of_aa {t : T κ ν} (h : AA t) : rebalT t = t := by
  cases t with
  | nil => rfl
  | node i lv l e r =>
    simp only [rebalT]
    rw [if_neg]
    have := h.1
    rcases h.2.1 with h | h <;> omega

/-- What removal does to a tree: the level stays, or is one lower. -/
def Shrunk (t u : T κ ν) : Prop :=
  AA u ∧ ((lev u = lev t ∧ (hr u → hr t)) ∨ lev u + 1 = lev t)

/-- A node one child of which is one level too low. -/
def Deficient : T κ ν → Prop
  | nil => False
  | node _ lv l _ r => AA l ∧ AA r ∧
      ((lev l + 2 = lv ∧ lev r + 1 = lv) ∨ (lev l + 2 = lv ∧ lev r = lv ∧ ¬ hr r) ∨ (lev l + 1 = lv ∧ lev r + 2 = lv))

/-- The intermediate trees of the rebalancing have the nodes the code relies on. -/
def Shapes (i lv : Nat) (l : T κ ν) (e : Option (κ × ν)) (r : T κ ν) : Prop :=
  right (skewT (node i (lv - 1) l e (clamp (lv - 1) r))) ≠ nil ∧
  right (splitT (onRight (onRight skewT) (onRight skewT (skewT (node i (lv - 1) l e (clamp (lv - 1) r)))))) ≠ nil

theorem rebal_A {i lv l e r} (hl : AA l) (hr' : AA r) (h1 : lev l + 2 = lv) (h2 : lev r + 1 = lv) :
    Shapes (κ := κ) (ν := ν) i lv l e r ∧ AA (rebalT (node i lv l e r)) ∧
      ((lev (rebalT (node i lv l e r)) = lv ∧ ¬ hr (rebalT (node i lv l e r))) ∨ lev (rebalT (node i lv l e r)) + 1 = lv) := by
  cases r with
  | nil => simp [lev_nil, lev_node] at h2; omega
  | node ir lr b er rr =>
    have h2' : lr + 1 = lv := h2
    obtain ⟨a1, a2, a3, a4⟩ := hr'
    have ek : clamp (lv - 1) (node ir lr b er rr) = node ir lr b er rr := by
      simp only [clamp]; rw [if_neg (by omega)]
    have e1 : skewT (node i (lv - 1) l e (node ir lr b er rr)) = node i (lv - 1) l e (node ir lr b er rr) :=
      skewT_of_lt (by omega)
    have e2 : skewT (node ir lr b er rr) = node ir lr b er rr := skewT_of_lt (by omega)
    have e3 : skewT rr = rr := by
      cases rr with
      | nil => rfl
      | node => exact skewT_of_lt (by have := a4.1; omega)
    have hreb : rebalT (node i lv l e (node ir lr b er rr)) = onRight splitT (splitT (node i (lv - 1) l e (node ir lr b er rr))) := by
      simp only [rebalT]
      rw [if_pos (by omega), ek, e1]
      simp only [onRight, e2, e3]
    simp only [Shapes]
    rw [hreb, ek, e1]
    simp only [onRight, e2, e3]
    by_cases hh : lev rr = lr
    · cases rr with
      | nil => simp [lev_nil, lev_node] at hh; omega
      | node j lj x ej y =>
        have hh' : lj = lr := hh
        have es : splitT (node i (lv - 1) l e (node ir lr b er (node j lj x ej y))) =
            node ir (lr + 1) (node i (lv - 1) l e b) er (node j lj x ej y) := by
          simp only [splitT]; rw [if_pos (by omega)]
        have ny : lev y + 1 = lj := by
          rcases a2 with a2 | a2
          · simp [lev_nil, lev_node] at a2; omega
          · have := a2.2
            simp only [hr_nil, hr_node] at this
            rcases a4.2.1 with h | h
            · exact h
            · exact absurd h.1 this
        have es2 : splitT (node j lj x ej y) = node j lj x ej y := splitT_of_lt (by
          have := lev_right_le a4.2.2.2; omega)
        rw [es]
        simp only [onRight, es2]
        refine ⟨⟨by simp [right_nil, right_node], by simp [right_nil, right_node]⟩, ⟨?_, ?_, ⟨?_, ?_, hl, a3⟩, a4⟩, Or.inl ⟨?_, ?_⟩⟩
        · simp [lev_nil, lev_node]; omega
        · left; simp [lev_nil, lev_node]; omega
        · omega
        · left; omega
        · simp [lev_nil, lev_node]; omega
        · simp [hr_nil, hr_node, lev_nil, lev_node]; omega
    · have hrr : lev rr + 1 = lr := by rcases a2 with h | h; exact h; exact absurd h.1 hh
      have es : splitT (node i (lv - 1) l e (node ir lr b er rr)) = node i (lv - 1) l e (node ir lr b er rr) :=
        splitT_of_lt (by simp only [right_nil, right_node]; omega)
      have es2 : splitT (node ir lr b er rr) = node ir lr b er rr :=
        splitT_of_lt (by have := lev_right_le a4; omega)
      rw [es]
      simp only [onRight, es2]
      refine ⟨⟨by simp [right_nil, right_node], by simp [right_nil, right_node]⟩, ⟨?_, ?_, hl, a1, a2, a3, a4⟩, Or.inr ?_⟩
      · omega
      · right; simp [lev_nil, lev_node, hr_nil, hr_node]; omega
      · simp [lev_nil, lev_node]; omega

theorem rebal_C {i lv l e r} (hl : AA l) (hr' : AA r) (h1 : lev l + 1 = lv) (h2 : lev r + 2 = lv) :
    Shapes (κ := κ) (ν := ν) i lv l e r ∧ AA (rebalT (node i lv l e r)) ∧
      ((lev (rebalT (node i lv l e r)) = lv ∧ ¬ hr (rebalT (node i lv l e r))) ∨ lev (rebalT (node i lv l e r)) + 1 = lv) := by
  cases l with
  | nil => simp [lev_nil, lev_node] at h1; omega
  | node il ll a el b =>
    have h1' : ll + 1 = lv := h1
    obtain ⟨a1, a2, a3, a4⟩ := hl
    have ek : clamp (lv - 1) r = r := by
      cases r with
      | nil => rfl
      | node => simp only [clamp]; simp only [lev_nil, lev_node] at h2; rw [if_neg (by omega)]
    have e1 : skewT (node i (lv - 1) (node il ll a el b) e r) = node il ll a el (node i (lv - 1) b e r) := by
      simp only [skewT]; rw [if_pos (by omega)]
    have hrr := lev_right_le hr'
    by_cases hb : lev b = ll
    · cases b with
      | nil => simp [lev_nil, lev_node] at hb; omega
      | node jb lb b1 eb b2 =>
        have hb' : lb = ll := hb
        have nb : lev b2 + 1 = lb := by
          rcases a2 with a2 | a2
          · simp [lev_nil, lev_node] at a2; omega
          · have := a2.2
            simp only [hr_nil, hr_node] at this
            rcases a4.2.1 with h | h
            · exact h
            · exact absurd h.1 this
        have nb1 := a4.1
        have e2 : skewT (node i (lv - 1) (node jb lb b1 eb b2) e r) = node jb lb b1 eb (node i (lv - 1) b2 e r) := by
          simp only [skewT]; rw [if_pos (by omega)]
        have e3 : skewT (node i (lv - 1) b2 e r) = node i (lv - 1) b2 e r := skewT_of_lt (by omega)
        have es : splitT (node il ll a el (node jb lb b1 eb (node i (lv - 1) b2 e r))) =
            node jb (lb + 1) (node il ll a el b1) eb (node i (lv - 1) b2 e r) := by
          simp only [splitT]; rw [if_pos (by omega)]
        have es2 : splitT (node i (lv - 1) b2 e r) = node i (lv - 1) b2 e r := splitT_of_lt (by omega)
        have er : rebalT (node i lv (node il ll a el (node jb lb b1 eb b2)) e r) =
            node jb (lb + 1) (node il ll a el b1) eb (node i (lv - 1) b2 e r) := by
          simp only [rebalT]
          rw [if_pos (by omega), ek, e1]
          simp only [onRight, e2, e3, es, es2]
        simp only [Shapes]
        rw [er, ek, e1]
        simp only [onRight, e2, e3, es]
        refine ⟨⟨by simp [right_nil, right_node], by simp [right_nil, right_node]⟩, ⟨?_, ?_, ⟨a1, Or.inl (by omega), a3, a4.2.2.1⟩, ?_, ?_, a4.2.2.2, hr'⟩, Or.inl ⟨?_, ?_⟩⟩
        · simp [lev_nil, lev_node]; omega
        · left; simp [lev_nil, lev_node]; omega
        · omega
        · left; omega
        · simp [lev_nil, lev_node]; omega
        · simp [hr_nil, hr_node, lev_nil, lev_node]; omega
    · have nb : lev b + 1 = ll := by rcases a2 with h | h; exact h; exact absurd h.1 hb
      have e2 : skewT (node i (lv - 1) b e r) = node i (lv - 1) b e r := skewT_of_lt (by omega)
      have e3 : skewT r = r := by
        cases r with
        | nil => rfl
        | node => exact skewT_of_lt (by have := hr'.1; omega)
      have es : splitT (node il ll a el (node i (lv - 1) b e r)) = node il ll a el (node i (lv - 1) b e r) :=
        splitT_of_lt (by simp only [right_nil, right_node]; omega)
      have es2 : splitT (node i (lv - 1) b e r) = node i (lv - 1) b e r := splitT_of_lt (by omega)
      have er : rebalT (node i lv (node il ll a el b) e r) = node il ll a el (node i (lv - 1) b e r) := by
        simp only [rebalT]
        rw [if_pos (by omega), ek, e1]
        simp only [onRight, e2, e3, es, es2]
      simp only [Shapes]
      rw [er, ek, e1]
      simp only [onRight, e2, e3, es]
      refine ⟨⟨by simp [right_nil, right_node], by simp [right_nil, right_node]⟩, ⟨a1, ?_, a3, by omega, Or.inl (by omega), a4, hr'⟩, Or.inr ?_⟩
      · right; simp [lev_nil, lev_node, hr_nil, hr_node]; omega
      · simp [lev_nil, lev_node]; omega

theorem rebal_B {i lv l e r} (hl : AA l) (hr' : AA r) (h1 : lev l + 2 = lv) (h2 : lev r = lv) (h3 : ¬ hr r) :
    Shapes (κ := κ) (ν := ν) i lv l e r ∧ AA (rebalT (node i lv l e r)) ∧ lev (rebalT (node i lv l e r)) = lv := by
  cases r with
  | nil => simp [lev_nil, lev_node] at h2; omega
  | node ir lr b er rr =>
    have h2' : lr = lv := h2
    obtain ⟨a1, a2, a3, a4⟩ := hr'
    have hrr : lev rr + 1 = lr := by
      rcases a2 with h | h
      · exact h
      · exact absurd h.1 h3
    have ek : clamp (lv - 1) (node ir lr b er rr) = node ir (lv - 1) b er rr := by
      simp only [clamp]; rw [if_pos (by omega)]
    have e1 : skewT (node i (lv - 1) l e (node ir (lv - 1) b er rr)) = node i (lv - 1) l e (node ir (lv - 1) b er rr) :=
      skewT_of_lt (by omega)
    cases b with
    | nil => simp [lev_nil, lev_node] at a1; omega
    | node j lj x ej y =>
      have a1' : lj + 1 = lr := a1
      have e2 : skewT (node ir (lv - 1) (node j lj x ej y) er rr) = node j lj x ej (node ir (lv - 1) y er rr) := by
        simp only [skewT]; rw [if_pos (by omega)]
      obtain ⟨x1, x2, x3, x4⟩ := a3
      by_cases hy : lev y = lj
      · cases y with
        | nil => simp [lev_nil, lev_node] at hy; omega
        | node jy ly y1 ey y2 =>
          have hy' : ly = lj := hy
          have ny : lev y2 + 1 = ly := by
            rcases x2 with h | h
            · simp [lev_nil, lev_node] at h; omega
            · have := h.2
              simp only [hr_nil, hr_node] at this
              rcases x4.2.1 with h | h
              · exact h
              · exact absurd h.1 this
          have y1l := x4.1
          have e3 : skewT (node ir (lv - 1) (node jy ly y1 ey y2) er rr) = node jy ly y1 ey (node ir (lv - 1) y2 er rr) := by
            simp only [skewT]; rw [if_pos (by omega)]
          have es : splitT (node i (lv - 1) l e (node j lj x ej (node jy ly y1 ey (node ir (lv - 1) y2 er rr)))) =
              node j (lj + 1) (node i (lv - 1) l e x) ej (node jy ly y1 ey (node ir (lv - 1) y2 er rr)) := by
            simp only [splitT]; rw [if_pos (by omega)]
          have es2 : splitT (node jy ly y1 ey (node ir (lv - 1) y2 er rr)) =
              node ir (lv - 1 + 1) (node jy ly y1 ey y2) er rr := by
            cases rr with
            | nil => simp [lev_nil, lev_node] at hrr; omega
            | node q lq p eq z => simp only [lev_nil, lev_node] at hrr; simp only [splitT]; rw [if_pos (by omega)]
          have er' : rebalT (node i lv l e (node ir lr (node j lj x ej (node jy ly y1 ey y2)) er rr)) =
              node j (lj + 1) (node i (lv - 1) l e x) ej (node ir (lv - 1 + 1) (node jy ly y1 ey y2) er rr) := by
            simp only [rebalT]
            rw [if_pos (by omega), ek, e1]
            simp only [onRight, e2, e3, es, es2]
          simp only [Shapes]
          rw [er', ek, e1]
          simp only [onRight, e2, e3, es]
          refine ⟨⟨by simp [right_nil, right_node], by simp [right_nil, right_node]⟩, ⟨?_, ?_, ⟨?_, ?_, hl, x3⟩, ?_, ?_, ⟨x4.1, Or.inl ny, x4.2.2.1, x4.2.2.2⟩, a4⟩, ?_⟩
          · simp [lev_nil, lev_node]; omega
          · right; simp [lev_nil, lev_node, hr_nil, hr_node]; omega
          · omega
          · left; omega
          · simp [lev_nil, lev_node]; omega
          · left; omega
          · simp [lev_nil, lev_node]; omega
      · have ny : lev y + 1 = lj := by rcases x2 with h | h; exact h; exact absurd h.1 hy
        have e3 : skewT (node ir (lv - 1) y er rr) = node ir (lv - 1) y er rr := skewT_of_lt (by omega)
        have es : splitT (node i (lv - 1) l e (node j lj x ej (node ir (lv - 1) y er rr))) =
            node j (lj + 1) (node i (lv - 1) l e x) ej (node ir (lv - 1) y er rr) := by
          simp [splitT]
        cases rr with
        | nil => simp [lev_nil, lev_node] at hrr; omega
        | node q lq p eq z =>
          have hrr' : lq + 1 = lr := hrr
          obtain ⟨q1, q2, q3, q4⟩ := a4
          by_cases hz : lev z = lq
          · have es2 : splitT (node ir (lv - 1) y er (node q lq p eq z)) =
                node q (lq + 1) (node ir (lv - 1) y er p) eq z := by
              cases z with
              | nil => simp [lev_nil, lev_node] at hz; omega
              | node jz lz z1 ez z2 => simp only [lev_nil, lev_node] at hz; simp only [splitT]; rw [if_pos (by omega)]
            have er' : rebalT (node i lv l e (node ir lr (node j lj x ej y) er (node q lq p eq z))) =
                node j (lj + 1) (node i (lv - 1) l e x) ej (node q (lq + 1) (node ir (lv - 1) y er p) eq z) := by
              simp only [rebalT]
              rw [if_pos (by omega), ek, e1]
              simp only [onRight, e2, e3, es, es2]
            simp only [Shapes]
            rw [er', ek, e1]
            simp only [onRight, e2, e3, es]
            refine ⟨⟨by simp [right_nil, right_node], by simp [right_nil, right_node]⟩, ⟨?_, ?_, ⟨?_, ?_, hl, x3⟩, ?_, ?_, ⟨?_, ?_, x4, q3⟩, q4⟩, ?_⟩
            · simp [lev_nil, lev_node]; omega
            · right; simp [lev_nil, lev_node, hr_nil, hr_node]; omega
            · omega
            · left; omega
            · simp [lev_nil, lev_node]; omega
            · left; omega
            · omega
            · left; omega
            · simp [lev_nil, lev_node]; omega
          · have nz : lev z + 1 = lq := by rcases q2 with h | h; exact h; exact absurd h.1 hz
            have es2 : splitT (node ir (lv - 1) y er (node q lq p eq z)) = node ir (lv - 1) y er (node q lq p eq z) :=
              splitT_of_lt (by simp only [right_nil, right_node]; omega)
            have er' : rebalT (node i lv l e (node ir lr (node j lj x ej y) er (node q lq p eq z))) =
                node j (lj + 1) (node i (lv - 1) l e x) ej (node ir (lv - 1) y er (node q lq p eq z)) := by
              simp only [rebalT]
              rw [if_pos (by omega), ek, e1]
              simp only [onRight, e2, e3, es, es2]
            simp only [Shapes]
            rw [er', ek, e1]
            simp only [onRight, e2, e3, es]
            refine ⟨⟨by simp [right_nil, right_node], by simp [right_nil, right_node]⟩, ⟨?_, ?_, ⟨?_, ?_, hl, x3⟩, ?_, ?_, x4, q1, q2, q3, q4⟩, ?_⟩
            · simp [lev_nil, lev_node]; omega
            · left; simp [lev_nil, lev_node]; omega
            · omega
            · left; omega
            · omega
            · right; simp [lev_nil, lev_node, hr_nil, hr_node]; omega
            · simp [lev_nil, lev_node]; omega

/-- After a removal in the left subtree. -/
theorem shrunk_left {j lv l e r} {l' : T κ ν} (e' : Option (κ × ν)) (h : AA (node j lv l e r)) (g : Shrunk l l') :
    Shrunk (node j lv l e r) (rebalT (node j lv l' e' r)) ∧
      (AA (node j lv l' e' r) ∨ (lev l' + 1 < lv ∨ lev r + 1 < lv) ∧ Shapes j lv l' e' r) := by
  obtain ⟨h1, h2, h3, h4⟩ := h
  obtain ⟨g1, g2⟩ := g
  rcases g2 with ⟨g2, g3⟩ | g2
  · have aa : AA (node j lv l' e' r) := ⟨by omega, h2, g1, h4⟩
    rw [rebalT_of_aa aa]
    exact ⟨⟨aa, Or.inl ⟨rfl, id⟩⟩, Or.inl aa⟩
  · rcases h2 with h2 | h2
    · obtain ⟨s, a, b⟩ := rebal_A (i := j) (e := e') g1 h4 (by omega) h2
      refine ⟨⟨a, ?_⟩, Or.inr ⟨by omega, s⟩⟩
      rcases b with b | b
      · exact Or.inl ⟨b.1, fun h => absurd h b.2⟩
      · exact Or.inr b
    · obtain ⟨s, a, b⟩ := rebal_B (i := j) (e := e') g1 h4 (by omega) h2.1 h2.2
      exact ⟨⟨a, Or.inl ⟨b, fun _ => h2.1⟩⟩, Or.inr ⟨by omega, s⟩⟩

/-- After a removal in the right subtree. -/
theorem shrunk_right {j lv l e r} {r' : T κ ν} (h : AA (node j lv l e r)) (g : Shrunk r r') :
    Shrunk (node j lv l e r) (rebalT (node j lv l e r')) ∧
      (AA (node j lv l e r') ∨ (lev l + 1 < lv ∨ lev r' + 1 < lv) ∧ Shapes j lv l e r') := by
  obtain ⟨h1, h2, h3, h4⟩ := h
  obtain ⟨g1, g2⟩ := g
  by_cases hd : lev r' + 2 = lv
  · obtain ⟨s, a, b⟩ := rebal_C (i := j) (e := e) h3 g1 h1 hd
    refine ⟨⟨a, ?_⟩, Or.inr ⟨by omega, s⟩⟩
    rcases b with b | b
    · exact Or.inl ⟨b.1, fun h => absurd h b.2⟩
    · exact Or.inr b
  · have aa : AA (node j lv l e r') := by
      refine ⟨h1, ?_, h3, g1⟩
      rcases g2 with ⟨g2, g3⟩ | g2
      · rcases h2 with h2 | h2
        · left; omega
        · exact Or.inr ⟨by omega, fun h => h2.2 (g3 h)⟩
      · left
        rcases h2 with h2 | h2 <;> omega
    rw [rebalT_of_aa aa]
    refine ⟨⟨aa, Or.inl ⟨rfl, ?_⟩⟩, Or.inl aa⟩
    simp only [hr_nil, hr_node]
    intro h
    rcases g2 with ⟨g2, g3⟩ | g2
    · omega
    · rcases h2 with h2 | h2 <;> omega

/-- The last entry of a tree. -/
def maxE : T κ ν → Option (κ × ν)
  | nil => none
  | node _ _ _ e nil => e
  | node _ _ _ _ r => maxE r

/-- Remove the root; `del` removes a key of the left subtree. -/
def eraseRoot (del : κ → Option (T κ ν × Nat)) (i lv : Nat) : T κ ν → T κ ν → Option (T κ ν × Nat)
  | nil, r => some (r, i)
  | node jl ll a el b, nil => some (node jl ll a el b, i)
  | node jl ll a el b, node jr lr c er d =>
    match maxE (node jl ll a el b) with
    | none => none
    | some ex => (del ex.1).map fun p => (rebalT (node i lv p.1 (some ex) (node jr lr c er d)), p.2)

/-- Remove the key: the tree and the index that became free. -/
def eraseT (cmp : κ → κ → Int) : T κ ν → κ → Option (T κ ν × Nat)
  | nil, _ => none
  | node i lv l e r, k =>
    match e with
    | none => none
    | some x =>
      if cmp x.1 k < 0 then (eraseT cmp r k).map fun p => (rebalT (node i lv l e p.1), p.2)
      else if cmp x.1 k ≠ 0 then (eraseT cmp l k).map fun p => (rebalT (node i lv p.1 e r), p.2)
      else eraseRoot (fun k => eraseT cmp l k) i lv l r

theorem shrunk_child {i lv l e r} (h : AA (node i lv l e r : T κ ν)) :
    (l = nil → Shrunk (node i lv l e r) r) ∧ (r = nil → Shrunk (node i lv l e r) l) := by
  obtain ⟨h1, h2, h3, h4⟩ := h
  constructor
  · rintro rfl
    refine ⟨h4, ?_⟩
    rcases h2 with h2 | h2
    · exact Or.inr h2
    · exact Or.inl ⟨h2.1, fun h => absurd h h2.2⟩
  · rintro rfl
    exact ⟨h3, Or.inr h1⟩

theorem shrunk_eraseT (cmp : κ → κ → Int) : ∀ {t : T κ ν} {k : κ} {u : T κ ν} {x : Nat}, AA t →
    eraseT cmp t k = some (u, x) → Shrunk t u
  | nil, _, _, _, _, h => by simp [eraseT] at h
  | node i lv l none r, _, _, _, _, h => by simp [eraseT] at h
  | node i lv l (some e) r, k, u, x, ha, h => by
    simp only [eraseT] at h
    split at h
    · obtain ⟨p, hp, e1⟩ := Option.map_eq_some_iff.mp h
      simp only [Prod.mk.injEq] at e1
      obtain ⟨rfl, rfl⟩ := e1
      exact (shrunk_right ha (shrunk_eraseT cmp ha.2.2.2 hp)).1
    · split at h
      · obtain ⟨p, hp, e1⟩ := Option.map_eq_some_iff.mp h
        simp only [Prod.mk.injEq] at e1
        obtain ⟨rfl, rfl⟩ := e1
        exact (shrunk_left _ ha (shrunk_eraseT cmp ha.2.2.1 hp)).1
      · unfold eraseRoot at h
        split at h
        · simp only [Option.some.injEq, Prod.mk.injEq] at h
          obtain ⟨rfl, rfl⟩ := h
          exact (shrunk_child ha).1 rfl
        · simp only [Option.some.injEq, Prod.mk.injEq] at h
          obtain ⟨rfl, rfl⟩ := h
          exact (shrunk_child ha).2 rfl
        · split at h
          · simp at h
          · obtain ⟨p, hp, e1⟩ := Option.map_eq_some_iff.mp h
            simp only [Prod.mk.injEq] at e1
            obtain ⟨rfl, rfl⟩ := e1
            exact (shrunk_left _ ha (shrunk_eraseT cmp ha.2.2.1 hp)).1

/-! ### size and height -/

theorem size_ge : ∀ {t : T κ ν}, AA t → 2 ^ lev t ≤ (lab t).length + 1
  | nil, _ => by simp [lev_nil, lev_node, lab]
  | node i lv l e r, h => by
    have hl := size_ge h.2.2.1
    have hr := size_ge h.2.2.2
    have h1 := h.1
    have : 2 ^ lev l ≤ 2 ^ lev r := Nat.pow_le_pow_right (by omega) (by rcases h.2.1 with h | h <;> omega)
    have e : 2 ^ lv = 2 * 2 ^ lev l := by rw [← h1, Nat.pow_succ]; omega
    simp only [lev_nil, lev_node, lab, List.length_append, List.length_cons]
    omega

theorem height_le : ∀ {t : T κ ν}, AA t → (height t ≤ 2 * lev t) ∧ (¬ hr t → height t ≤ 2 * lev t - 1)
  | nil, _ => by simp [height]
  | node i lv l e r, h => by
    have hl := height_le h.2.2.1
    have hr' := height_le h.2.2.2
    obtain ⟨h1, h2, h3, h4⟩ := h
    simp only [height, lev_nil, lev_node]
    constructor
    · rcases h2 with h2 | h2
      · omega
      · have := hr'.2 h2.2; omega
    · intro hn
      rcases h2 with h2 | h2
      · omega
      · exact absurd h2.1 hn

end T
end Verif.Smap
