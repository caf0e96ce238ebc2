import Verif.Smap.Tree
import Verif.Smap.Spec
/-
Search order in the trees: where a key is inserted, what removal takes out.
-/
namespace Verif.Smap
open T Spec
variable {κ ν : Type}

namespace Lawful
variable {cmp : κ → κ → Int}

theorem refl (h : Lawful cmp) (a : κ) : cmp a a = 0 := by
  have := h.anti a a
  omega

theorem lt_iff (h : Lawful cmp) (a b : κ) : cmp a b < 0 ↔ 0 < cmp b a := by
  have := h.anti b a
  omega

theorem eq_iff (h : Lawful cmp) (a b : κ) : cmp a b = 0 ↔ cmp b a = 0 := by
  have := h.anti b a
  have := h.anti a b
  omega

theorem lt_of_lt_of_le (h : Lawful cmp) {a b c : κ} (h1 : cmp a b < 0) (h2 : cmp b c ≤ 0) : cmp a c < 0 := by
  have h3 := h.trans a b c (by omega) h2
  by_contra hn
  have h4 : cmp a c = 0 := by omega
  have := h.trans b c a h2 (by have := (h.anti c a); omega)
  have := (h.lt_iff a b).mp h1
  omega

theorem lt_of_le_of_lt (h : Lawful cmp) {a b c : κ} (h1 : cmp a b ≤ 0) (h2 : cmp b c < 0) : cmp a c < 0 := by
  have h3 := h.trans a b c h1 (by omega)
  by_contra hn
  have h4 : cmp a c = 0 := by omega
  have := h.trans c a b (by have := (h.anti c a); omega) h1
  have := (h.lt_iff b c).mp h2
  omega

/-- The entries before one that is not greater than `k` are less than `k`. -/
theorem lt_left (h : Lawful cmp) {a b k : κ} (h1 : cmp a b < 0) (h2 : cmp b k ≤ 0) : cmp a k < 0 :=
  h.lt_of_lt_of_le h1 h2

/-- The entries after one that is not less than `k` are greater than `k`. -/
theorem gt_right (h : Lawful cmp) {a b k : κ} (h1 : cmp a b < 0) (h2 : 0 ≤ cmp a k) : 0 < cmp b k := by
  have := h.lt_of_le_of_lt ((h.anti k a).mpr h2) h1
  exact (h.lt_iff k b).mp this

end Lawful

/-- The tree holds the entries `M` in order. -/
def Ord (cmp : κ → κ → Int) (t : T κ ν) (M : FMap κ ν) : Prop :=
  (lab t).map Prod.snd = M.map some ∧ Ascending cmp M

theorem Ord.nil (cmp : κ → κ → Int) : Ord cmp (nil : T κ ν) [] := ⟨rfl, List.Pairwise.nil⟩

theorem Ord.of_nil {cmp : κ → κ → Int} {M : FMap κ ν} (h : Ord cmp T.nil M) : M = [] := by
  have := h.1
  cases M with
  | nil => rfl
  | cons => simp [lab] at this

theorem Ord.isSome {cmp : κ → κ → Int} {t : T κ ν} {M : FMap κ ν} (h : Ord cmp t M) : ∀ x ∈ lab t, x.2.isSome := by
  intro x hx
  have : x.2 ∈ M.map some := h.1 ▸ List.mem_map_of_mem (f := Prod.snd) hx
  simp at this
  obtain ⟨a, b, -, h⟩ := this
  rw [← h]; rfl

theorem Ord.node {cmp : κ → κ → Int} {i lv l eo r} {M : FMap κ ν} (h : Ord cmp (T.node i lv l eo r) M) :
    ∃ Ml e Mr, eo = some e ∧ M = Ml ++ e :: Mr ∧ Ord cmp l Ml ∧ Ord cmp r Mr ∧
      (∀ a ∈ Ml, cmp a.1 e.1 < 0) ∧ (∀ b ∈ Mr, cmp e.1 b.1 < 0) ∧ (∀ a ∈ Ml, ∀ b ∈ Mr, cmp a.1 b.1 < 0) := by
  obtain ⟨h1, h2⟩ := h
  simp only [lab, List.map_append, List.map_cons] at h1
  obtain ⟨Ml, M2, rfl, e1, e2⟩ := List.map_eq_append_iff.mp h1.symm
  obtain ⟨e, Mr, rfl, e3, e4⟩ := List.map_eq_cons_iff.mp e2
  refine ⟨Ml, e, Mr, e3.symm, rfl, ⟨e1.symm, ?_⟩, ⟨e4.symm, ?_⟩, ?_, ?_, ?_⟩
  all_goals simp only [Ascending, List.pairwise_append, List.pairwise_cons] at h2
  · exact h2.1
  · exact h2.2.1.2
  · exact fun a ha => h2.2.2 a ha e (by simp)
  · exact h2.2.1.1
  · exact fun a ha b hb => h2.2.2 a ha b (by simp [hb])

theorem Ord.length {cmp : κ → κ → Int} {t : T κ ν} {M : FMap κ ν} (h : Ord cmp t M) : (lab t).length = M.length := by
  have := congrArg List.length h.1
  simpa using this

theorem filter_all {p : κ × ν → Bool} {M : List (κ × ν)} (h : ∀ e ∈ M, p e = true) : M.filter p = M :=
  List.filter_eq_self.mpr h

theorem filter_none {p : κ × ν → Bool} {M : List (κ × ν)} (h : ∀ e ∈ M, p e = false) : M.filter p = [] :=
  List.filter_eq_nil_iff.mpr (fun e he => by simp [h e he])

section
variable {cmp : κ → κ → Int} (hc : Lawful cmp) {Ml Mr : FMap κ ν} {e : κ × ν} {k : κ}
include hc

theorem below_of_lt (hl : ∀ a ∈ Ml, cmp a.1 e.1 < 0) (h : cmp e.1 k < 0) :
    below cmp k (Ml ++ e :: Mr) = Ml ++ e :: below cmp k Mr := by
  have : ∀ a ∈ Ml, decide (cmp a.1 k < 0) = true := fun a ha => by
    simpa using hc.lt_left (hl a ha) (by omega)
  simp [below, h, filter_all this]

theorem above_of_lt (hl : ∀ a ∈ Ml, cmp a.1 e.1 < 0) (h : cmp e.1 k < 0) :
    above cmp k (Ml ++ e :: Mr) = above cmp k Mr := by
  have : ∀ a ∈ Ml, decide (0 < cmp a.1 k) = false := fun a ha => by
    have := hc.lt_left (hl a ha) (show cmp e.1 k ≤ 0 by omega)
    simp; omega
  simp only [above, List.filter_append, filter_none this, List.nil_append]
  rw [List.filter_cons_of_neg (by simp; omega)]

theorem below_of_gt (hr : ∀ b ∈ Mr, cmp e.1 b.1 < 0) (h : 0 < cmp e.1 k) :
    below cmp k (Ml ++ e :: Mr) = below cmp k Ml := by
  have : ∀ b ∈ Mr, decide (cmp b.1 k < 0) = false := fun b hb => by
    have := hc.gt_right (hr b hb) (show 0 ≤ cmp e.1 k by omega)
    simp; omega
  simp only [below, List.filter_append]
  rw [List.filter_cons_of_neg (by simp; omega), filter_none this, List.append_nil]

theorem above_of_gt (hr : ∀ b ∈ Mr, cmp e.1 b.1 < 0) (h : 0 < cmp e.1 k) :
    above cmp k (Ml ++ e :: Mr) = above cmp k Ml ++ e :: Mr := by
  have : ∀ b ∈ Mr, decide (0 < cmp b.1 k) = true := fun b hb => by
    simpa using hc.gt_right (hr b hb) (by omega)
  simp [above, h, filter_all this]

theorem remove_mid (hl : ∀ a ∈ Ml, cmp a.1 e.1 < 0) (hr : ∀ b ∈ Mr, cmp e.1 b.1 < 0) (h : cmp e.1 k = 0) :
    remove cmp k (Ml ++ e :: Mr) = Ml ++ Mr := by
  have h1 : ∀ a ∈ Ml, (cmp a.1 k != 0) = true := fun a ha => by
    have := hc.lt_left (hl a ha) (show cmp e.1 k ≤ 0 by omega)
    simp; omega
  have h2 : ∀ b ∈ Mr, (cmp b.1 k != 0) = true := fun b hb => by
    have := hc.gt_right (hr b hb) (show 0 ≤ cmp e.1 k by omega)
    simp; omega
  simp [remove, h, filter_all h1, filter_all h2]

theorem assign_mid (v : ν) (hl : ∀ a ∈ Ml, cmp a.1 e.1 < 0) (hr : ∀ b ∈ Mr, cmp e.1 b.1 < 0) (h : cmp e.1 k = 0) :
    assign cmp k v (Ml ++ e :: Mr) = Ml ++ (e.1, v) :: Mr := by
  have h1 : ∀ a ∈ Ml, (fun x : κ × ν => if cmp x.1 k = 0 then (x.1, v) else x) a = id a := fun a ha => by
    have := hc.lt_left (hl a ha) (show cmp e.1 k ≤ 0 by omega)
    simp; omega
  have h2 : ∀ b ∈ Mr, (fun x : κ × ν => if cmp x.1 k = 0 then (x.1, v) else x) b = id b := fun b hb => by
    have := hc.gt_right (hr b hb) (show 0 ≤ cmp e.1 k by omega)
    simp; omega
  simp only [assign, List.map_append, List.map_cons, if_pos h]
  rw [List.map_congr_left h1, List.map_congr_left h2]
  simp

theorem find_mid (hl : ∀ a ∈ Ml, cmp a.1 e.1 < 0) (h : cmp e.1 k = 0) :
    Spec.find cmp k (Ml ++ e :: Mr) = some e := by
  have h1 : Ml.find? (fun e => cmp e.1 k == 0) = none := by
    rw [List.find?_eq_none]
    intro a ha
    have := hc.lt_left (hl a ha) (show cmp e.1 k ≤ 0 by omega)
    simp; omega
  simp [Spec.find, List.find?_append, h1, h]

theorem find_of_lt (hl : ∀ a ∈ Ml, cmp a.1 e.1 < 0) (h : cmp e.1 k < 0) :
    Spec.find cmp k (Ml ++ e :: Mr) = Spec.find cmp k Mr := by
  have h1 : Ml.find? (fun e => cmp e.1 k == 0) = none := by
    rw [List.find?_eq_none]
    intro a ha
    have := hc.lt_left (hl a ha) (show cmp e.1 k ≤ 0 by omega)
    simp; omega
  have h2 : (cmp e.1 k == 0) = false := by simp; omega
  simp [Spec.find, List.find?_append, h1, h2]

theorem find_of_gt (hr : ∀ b ∈ Mr, cmp e.1 b.1 < 0) (h : 0 < cmp e.1 k) :
    Spec.find cmp k (Ml ++ e :: Mr) = Spec.find cmp k Ml := by
  have h1 : Mr.find? (fun e => cmp e.1 k == 0) = none := by
    rw [List.find?_eq_none]
    intro b hb
    have := hc.gt_right (hr b hb) (show 0 ≤ cmp e.1 k by omega)
    simp; omega
  have h2 : (cmp e.1 k == 0) = false := by simp; omega
  simp [Spec.find, List.find?_append, h1, h2]

end

theorem find_none {cmp : κ → κ → Int} {k : κ} {M : FMap κ ν} :
    Spec.find cmp k M = none ↔ ∀ e ∈ M, cmp e.1 k ≠ 0 := by
  simp [Spec.find, List.find?_eq_none]

/-- The new node goes between the smaller and the greater keys. -/
theorem lab_insertT {cmp : κ → κ → Int} (hc : Lawful cmp) (k : κ) (i : Nat) : ∀ {t : T κ ν} {M : FMap κ ν}, Ord cmp t M →
    Spec.find cmp k M = none →
    ∃ A B, lab t = A ++ B ∧ lab (insertT cmp k i t) = A ++ (i, none) :: B ∧
      A.map Prod.snd = (below cmp k M).map some ∧ B.map Prod.snd = (above cmp k M).map some
  | .nil, M, h, _ => by
    rw [h.of_nil]
    exact ⟨[], [], rfl, rfl, rfl, rfl⟩
  | .node j lv l eo r, M, h, hk => by
    obtain ⟨Ml, e, Mr, rfl, rfl, ol, or', hl, hr, -⟩ := h.node
    simp only [insertT]
    have hne : cmp e.1 k ≠ 0 := find_none.mp hk e (by simp)
    by_cases hlt : cmp e.1 k < 0
    · rw [find_of_lt hc hl hlt] at hk
      obtain ⟨A, B, e1, e2, e3, e4⟩ := lab_insertT hc k i or' hk
      rw [if_pos hlt]
      refine ⟨lab l ++ (j, some e) :: A, B, ?_, ?_, ?_, ?_⟩
      · simp [lab, e1]
      · simp [lab, e2]
      · rw [below_of_lt hc hl hlt]; simp [e3, ol.1]
      · rw [above_of_lt hc hl hlt, e4]
    · have hgt : 0 < cmp e.1 k := by omega
      rw [find_of_gt hc hr hgt] at hk
      obtain ⟨A, B, e1, e2, e3, e4⟩ := lab_insertT hc k i ol hk
      rw [if_neg hlt]
      refine ⟨A, B ++ (j, some e) :: lab r, ?_, ?_, ?_, ?_⟩
      · simp [lab, e1]
      · simp [lab, e2]
      · rw [below_of_gt hc hr hgt, e3]
      · rw [above_of_gt hc hr hgt]; simp [e4, or'.1]

theorem maxE_spec : ∀ {t : T κ ν} {M : FMap κ ν} {cmp : κ → κ → Int}, Ord cmp t M → t ≠ .nil →
    ∃ M' e A j, M = M' ++ [e] ∧ maxE t = some e ∧ lab t = A ++ [(j, some e)]
  | .nil, _, _, _, h => absurd rfl h
  | .node j lv l eo .nil, M, cmp, h, _ => by
    obtain ⟨Ml, e, Mr, rfl, rfl, ol, or', -⟩ := h.node
    rw [or'.of_nil]
    exact ⟨Ml, e, lab l, j, rfl, rfl, by simp [lab]⟩
  | .node j lv l eo (.node jr lr b er rr), M, cmp, h, _ => by
    obtain ⟨Ml, e, Mr, rfl, rfl, ol, or', -⟩ := h.node
    obtain ⟨M', e', A, j', rfl, e2, e3⟩ := maxE_spec or' (by simp)
    refine ⟨Ml ++ e :: M', e', lab l ++ (j, some e) :: A, j', by simp, ?_, ?_⟩
    · simp only [maxE]; exact e2
    · simp [lab] at e3 ⊢; exact e3

/-- What a removal does to the nodes in order: the node goes, or the one before it goes and its entry
moves. -/
def Removed (k : κ) (cmp : κ → κ → Int) (t u : T κ ν) (x : Nat) (M : FMap κ ν) : Prop :=
  ∃ A i e B, lab t = A ++ (i, some e) :: B ∧ cmp e.1 k = 0 ∧ Spec.find cmp k M = some e ∧
    ((x = i ∧ lab u = A ++ B) ∨ (B ≠ [] ∧ ∃ A' ex, A = A' ++ [(x, ex)] ∧ lab u = A' ++ (i, ex) :: B))

theorem removed_last {k : κ} {cmp : κ → κ → Int} {t u : T κ ν} {x : Nat} {M : FMap κ ν} {A : List (Nat × Option (κ × ν))}
    {j : Nat} {ex : κ × ν} (hc : Lawful cmp) (o : Ord cmp t M) (h : Removed k cmp t u x M)
    (hl : lab t = A ++ [(j, some ex)]) (hk : ex.1 = k) :
    x = j ∧ lab u = A := by
  obtain ⟨A1, i, e, B, h1, h2, -, h3⟩ := h
  have hB : B = [] := by
    by_contra hB
    obtain ⟨M1, M2, eM, a1, a2⟩ := List.map_eq_append_iff.mp (o.1.symm.trans (by rw [h1, List.map_append]))
    rw [List.map_cons] at a2
    obtain ⟨e0, M3, rfl, a3, a4⟩ := List.map_eq_cons_iff.mp a2
    simp at a3
    subst a3
    have hex : ex ∈ M3 := by
      have : (j, some ex) ∈ B := by
        rw [h1] at hl
        obtain ⟨B', b, rfl⟩ : ∃ B' b, B = B' ++ [b] := ⟨B.dropLast, B.getLast hB, (List.dropLast_concat_getLast hB).symm⟩
        have : (A1 ++ (i, some e0) :: B') ++ [b] = A ++ [(j, some ex)] := by simpa using hl
        have := List.append_inj' this rfl
        simp at this
        simp [this.2]
      have h' : some ex ∈ M3.map some := by rw [a4]; exact List.mem_map_of_mem (f := Prod.snd) this
      simpa using h'
    have asc := o.2
    rw [eM] at asc
    simp only [Ascending, List.pairwise_append, List.pairwise_cons] at asc
    have := asc.2.1.1 ex hex
    rw [hk] at this
    omega
  subst hB
  have : A1 ++ [(i, some e)] = A ++ [(j, some ex)] := by rw [← h1, hl]
  have := List.append_inj' this rfl
  simp at this
  obtain ⟨rfl, rfl, rfl⟩ := this
  rcases h3 with ⟨rfl, h3⟩ | ⟨h, -⟩
  · exact ⟨rfl, by simpa using h3⟩
  · exact absurd rfl h

theorem lab_eraseT {cmp : κ → κ → Int} (hc : Lawful cmp) : ∀ {t : T κ ν} {M : FMap κ ν} (k : κ), Ord cmp t M →
    (match eraseT cmp t k with
      | none => Spec.find cmp k M = none
      | some (u, x) => Removed k cmp t u x M)
  | .nil, M, k, h => by
    rw [h.of_nil]
    simp [eraseT, Spec.find]
  | .node j lv l eo r, M, k, h => by
    obtain ⟨Ml, e, Mr, rfl, rfl, ol, or', hl, hr, -⟩ := h.node
    simp only [eraseT]
    by_cases hlt : cmp e.1 k < 0
    · have ih := lab_eraseT hc k or'
      rw [if_pos hlt]
      cases he : eraseT cmp r k with
      | none =>
        simp only [he] at ih
        simp only [Option.map_none]
        rw [find_of_lt hc hl hlt]; exact ih
      | some p =>
        obtain ⟨u, x⟩ := p
        simp only [he] at ih
        simp only [Option.map_some]
        obtain ⟨A, i, e', B, h1, h2, hf, h3⟩ := ih
        refine ⟨lab l ++ (j, some e) :: A, i, e', B, by simp [lab, h1], h2, by rw [find_of_lt hc hl hlt]; exact hf, ?_⟩
        rcases h3 with ⟨rfl, h3⟩ | ⟨hB, A', ex, rfl, h3⟩
        · exact Or.inl ⟨rfl, by simp [lab, h3]⟩
        · exact Or.inr ⟨hB, lab l ++ (j, some e) :: A', ex, by simp, by simp [lab, h3]⟩
    · rw [if_neg hlt]
      by_cases hne : cmp e.1 k ≠ 0
      · have hgt : 0 < cmp e.1 k := by omega
        have ih := lab_eraseT hc k ol
        rw [if_pos hne]
        cases he : eraseT cmp l k with
        | none =>
          simp only [he] at ih
          simp only [Option.map_none]
          rw [find_of_gt hc hr hgt]; exact ih
        | some p =>
          obtain ⟨u, x⟩ := p
          simp only [he] at ih
          simp only [Option.map_some]
          obtain ⟨A, i, e', B, h1, h2, hf, h3⟩ := ih
          refine ⟨A, i, e', B ++ (j, some e) :: lab r, by simp [lab, h1], h2, by rw [find_of_gt hc hr hgt]; exact hf, ?_⟩
          rcases h3 with ⟨rfl, h3⟩ | ⟨hB, A', ex, rfl, h3⟩
          · exact Or.inl ⟨rfl, by simp [lab, h3]⟩
          · exact Or.inr ⟨by simp, A', ex, rfl, by simp [lab, h3]⟩
      · rw [if_neg hne]
        have h0 : cmp e.1 k = 0 := by omega
        have hf := find_mid (Mr := Mr) hc hl h0
        cases l with
        | nil => exact ⟨[], j, e, lab r, by simp [lab], h0, hf, Or.inl ⟨rfl, by simp⟩⟩
        | node jl ll a el b =>
          cases r with
          | nil =>
            exact ⟨lab (T.node jl ll a el b), j, e, [], by simp [lab], h0, hf, Or.inl ⟨rfl, by simp⟩⟩
          | node jr lr c er d =>
            simp only [eraseRoot]
            obtain ⟨M', em, A, jm, rfl, e2, e3⟩ := maxE_spec ol (by simp)
            rw [e2]
            simp only
            have ih := lab_eraseT hc em.1 ol
            cases he : eraseT cmp (T.node jl ll a el b) em.1 with
            | none =>
              simp only [he] at ih
              have := find_none.mp ih em (by simp)
              exact absurd (hc.refl em.1) this
            | some p =>
              obtain ⟨u, x⟩ := p
              simp only [he] at ih
              simp only [Option.map_some]
              obtain ⟨rfl, h3⟩ := removed_last hc ol ih e3 rfl
              refine ⟨lab (T.node jl ll a el b), j, e, lab (T.node jr lr c er d), by simp [lab], h0, hf, Or.inr ?_⟩
              exact ⟨by simp [lab], A, some em, e3, by rw [lab_rebalT]; simp only [lab]; rw [h3]⟩

end Verif.Smap
