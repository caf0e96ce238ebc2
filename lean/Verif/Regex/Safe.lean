import Verif.Regex.Main
/- The compiler stays inside its memory. -/
namespace Verif.Regex
open Spec (Tok Re G)

/-- Not undefined, and a value has the property. -/
def R.Safe {β : Type} (Q : β → Prop) : R β → Prop
  | .ub => False
  | .err _ => True
  | .ok b => Q b

theorem R.Safe.bind {β γ : Type} {Q : β → Prop} {Q' : γ → Prop} {r : R β} {f : β → R γ} (h : r.Safe Q) (hf : ∀ b, Q b → (f b).Safe Q') : (r.bind f).Safe Q' := by
  cases r with
  | ub => cases h
  | err => exact h
  | ok b => exact hf b h

theorem R.Safe.mono {β : Type} {Q Q' : β → Prop} {r : R β} (h : r.Safe Q) (hq : ∀ b, Q b → Q' b) : r.Safe Q' := by
  cases r with
  | ub => cases h
  | err => exact h
  | ok b => exact hq b h

/-- The instructions an operator on the stack will need. -/
def Ator.weight : Ator → Nat
  | .lbra | .or | .quest => 2
  | .star | .plus => 1
  | .bot | .cat => 0

def weights (l : List (Ator × Nat)) : Nat := (l.map (·.1.weight)).sum

/-- The operands are instructions, and there is one at least. -/
def AndsOk (h : List Inst) (a : List Node) : Prop := ∀ n ∈ a, n.first < h.length ∧ n.last < h.length

theorem AndsOk.mono {h h' : List Inst} {a : List Node} (ha : AndsOk h a) (hl : h.length ≤ h'.length) : AndsOk h' a :=
  fun n hn => by have := ha n hn; omega

theorem newInst_safe {cap : Nat} {h : List Inst} {op : Op} {nx : Option Nat} (hc : h.length < cap) : (newInst cap h op nx).Safe (fun h' => h'.length = h.length + 1) := by
  unfold newInst
  rw [if_pos hc]
  simp [R.Safe]

theorem setNext_safe {h : List Inst} {p k : Nat} (hp : p < h.length) : (setNext h p k).Safe (fun h' => h'.length = h.length) := by
  unfold setNext
  rw [List.getElem?_eq_getElem hp]
  simp [R.Safe]

theorem popand_safe {h : List Inst} {a : List Node} (ha : AndsOk h a) : (popand a).Safe (fun x => x.1.first < h.length ∧ x.1.last < h.length ∧ AndsOk h x.2) := by
  cases a with
  | nil => exact trivial
  | cons n a =>
    have := ha n (by simp)
    exact ⟨this.1, this.2, fun m hm => ha m (by simp [hm])⟩

theorem pushand_safe {h : List Inst} {a : List Node} {f l : Nat} (ha : AndsOk h a) (hf : f < h.length) (hl : l < h.length) :
    (pushand a f l).Safe (fun a' => AndsOk h a' ∧ a' ≠ []) := by
  unfold pushand
  split
  · refine ⟨fun n hn => ?_, by simp⟩
    rcases List.mem_cons.1 hn with rfl | hn
    · exact ⟨hf, hl⟩
    · exact ha n hn
  · trivial

theorem reduce_safe {cap B : Nat} {x : Heap} {t : Ator} {id W : Nat} (ha : AndsOk x.h x.ands) (hB : B ≤ cap) (hw : x.h.length + (t.weight + W) ≤ B) :
    (reduce cap x t id).Safe (fun x' => AndsOk x'.h x'.ands ∧ x'.ands ≠ [] ∧ x'.h.length + W ≤ B) := by
  cases t with
  | bot => trivial
  | lbra =>
    simp only [Ator.weight] at hw
    refine (popand_safe ha).bind fun ⟨n1, a⟩ h1 => ?_
    refine (newInst_safe (by omega)).bind fun h h2 => ?_
    simp only at h1
    refine (setNext_safe (by omega)).bind fun h' h3 => ?_
    refine (newInst_safe (by omega)).bind fun h'' h4 => ?_
    refine (pushand_safe (h := h'') (h1.2.2.mono (by omega)) (by omega) (by omega)).bind fun a' h5 => ?_
    exact ⟨h5.1, h5.2, by simp only; omega⟩
  | or =>
    simp only [Ator.weight] at hw
    refine (popand_safe ha).bind fun ⟨n2, a⟩ h0 => ?_
    refine (popand_safe h0.2.2).bind fun ⟨n1, a⟩ h1 => ?_
    refine (newInst_safe (by omega)).bind fun h h2 => ?_
    simp only at h0 h1
    refine (setNext_safe (by omega)).bind fun h' h3 => ?_
    refine (setNext_safe (by omega)).bind fun h' h3' => ?_
    refine (newInst_safe (by omega)).bind fun h'' h4 => ?_
    refine (pushand_safe (h := h'') (h1.2.2.mono (by omega)) (by omega) (by omega)).bind fun a' h5 => ?_
    exact ⟨h5.1, h5.2, by simp only; omega⟩
  | cat =>
    simp only [Ator.weight] at hw
    refine (popand_safe ha).bind fun ⟨n2, a⟩ h0 => ?_
    refine (popand_safe h0.2.2).bind fun ⟨n1, a⟩ h1 => ?_
    simp only at h0 h1
    refine (setNext_safe (by omega)).bind fun h' h3 => ?_
    refine (pushand_safe (h := h') (h1.2.2.mono (by omega)) (by omega) (by omega)).bind fun a' h5 => ?_
    exact ⟨h5.1, h5.2, by simp only; omega⟩
  | star | plus =>
    simp only [Ator.weight] at hw
    refine (popand_safe ha).bind fun ⟨n2, a⟩ h0 => ?_
    refine (newInst_safe (by omega)).bind fun h h2 => ?_
    simp only at h0
    refine (setNext_safe (by omega)).bind fun h' h3 => ?_
    refine (pushand_safe (h := h') (h0.2.2.mono (by omega)) (by omega) (by omega)).bind fun a' h5 => ?_
    exact ⟨h5.1, h5.2, by simp only; omega⟩
  | quest =>
    simp only [Ator.weight] at hw
    refine (popand_safe ha).bind fun ⟨n2, a⟩ h0 => ?_
    refine (newInst_safe (by omega)).bind fun h h2 => ?_
    refine (newInst_safe (by omega)).bind fun h' h3 => ?_
    simp only at h0
    refine (setNext_safe (by omega)).bind fun h'' h4 => ?_
    refine (pushand_safe (h := h'') (h0.2.2.mono (by omega)) (by omega) (by omega)).bind fun a' h5 => ?_
    exact ⟨h5.1, h5.2, by simp only; omega⟩

/-- The state of the stacks. -/
structure Stacks (B : Nat) (o : List (Ator × Nat)) (x : Heap) : Prop where
  ands : AndsOk x.h x.ands
  bot : ∃ l, o = l ++ [(.bot, 0)]
  pot : x.h.length + weights o ≤ B

theorem evaluntil_safe {cap pri B : Nat} (hB : B ≤ cap) (hp : 1 ≤ pri) : ∀ {o : List (Ator × Nat)} {x : Heap}, Stacks B o x →
    (evaluntil cap pri o x).Safe (fun y => Stacks B y.1 y.2 ∧ (x.ands ≠ [] → y.2.ands ≠ []))
  | [], x, h => by
    obtain ⟨l, hl⟩ := h.bot
    simp at hl
  | (t, id) :: ts, x, h => by
    rw [evaluntil]
    split
    · rename_i hc
      have hpot := h.pot
      simp only [weights, List.map_cons, List.sum_cons] at hpot
      refine (reduce_safe h.ands hB hpot).bind fun x' h1 => ?_
      obtain ⟨l, hl⟩ := h.bot
      cases l with
      | nil =>
        simp only [List.nil_append, List.cons.injEq, Prod.mk.injEq] at hl
        obtain ⟨⟨rfl, rfl⟩, rfl⟩ := hl
        rcases hc with hc | hc
        · subst hc
          simp only [reduceCtorEq, if_false, evaluntil, if_true]
          trivial
        · simp only [Ator.prec] at hc; omega
      | cons q l =>
        simp only [List.cons_append, List.cons.injEq] at hl
        obtain ⟨rfl, hl⟩ := hl
        have hs : Stacks B ts x' := ⟨h1.1, ⟨l, hl⟩, h1.2.2⟩
        split
        · exact ⟨hs, fun _ => h1.2.1⟩
        · exact (evaluntil_safe hB hp hs).mono fun y hy => ⟨hy.1, fun _ => hy.2 h1.2.1⟩
    · exact ⟨h, fun h => h⟩

theorem pushator_safe {s : PS} {t : Ator} {B : Nat} (h : Stacks B s.ators s.x) :
    (pushator s t).Safe (fun s' => Stacks (B + t.weight) s'.ators s'.x) := by
  unfold pushator
  split
  · refine ⟨h.ands, ?_, ?_⟩
    · obtain ⟨l, hl⟩ := h.bot
      exact ⟨(t, s.cursub) :: l, by simp only; rw [hl]; rfl⟩
    · have := h.pot
      simp only [weights, List.map_cons, List.sum_cons] at this ⊢
      omega
  · trivial

theorem prec_pos {t : Ator} (h : t ≠ .bot) : 1 ≤ t.prec := by cases t <;> simp [Ator.prec] at *

theorem operator_safe {cap B : Nat} {s : PS} {t : Ator} (hB : B ≤ cap) (ht : t ≠ .bot) (h : Stacks B s.ators s.x) :
    (operator cap s t).Safe (fun s' => Stacks (B + t.weight) s'.ators s'.x) := by
  unfold operator
  refine (evaluntil_safe hB (prec_pos ht) h).bind fun ⟨o, x⟩ h1 => ?_
  exact (pushator_safe (s := { s with x := x, ators := o }) h1.1).bind fun s' h2 => h2

theorem Stacks.mono {B B' : Nat} {o : List (Ator × Nat)} {x : Heap} (h : Stacks B o x) (hb : B ≤ B') : Stacks B' o x := ⟨h.ands, h.bot, by have := h.pot; omega⟩

theorem cat_safe {cap B : Nat} {s : PS} (hB : B ≤ cap) (h : Stacks B s.ators s.x) :
    (if s.lastand then operator cap s .cat else .ok s).Safe (fun s' => Stacks B s'.ators s'.x) := by
  split
  · exact operator_safe hB (by simp) h
  · exact h

theorem operand_safe {cap B : Nat} {s : PS} {op : Op} (hB : B + 1 ≤ cap) (h : Stacks B s.ators s.x) :
    (operand cap s op).Safe (fun s' => Stacks (B + 1) s'.ators s'.x ∧ s'.x.ands ≠ []) := by
  unfold operand
  refine (cat_safe (by omega) h).bind fun s' h1 => ?_
  have hpot := h1.pot
  refine (newInst_safe (by omega)).bind fun hh h2 => ?_
  refine (pushand_safe (h := hh) (h1.ands.mono (by omega)) (by omega) (by omega)).bind fun a h3 => ?_
  exact ⟨⟨h3.1, h1.bot, by simp only; omega⟩, h3.2⟩

theorem token_safe {cap B : Nat} {s : PS} (hB : B + 2 ≤ cap) (h : Stacks B s.ators s.x) (t : Tok Op) :
    (token cap s t).Safe (fun s' => Stacks (B + 2) s'.ators s'.x) := by
  cases t with
  | one op => exact (operand_safe (by omega) h).mono fun s' h1 => h1.1.mono (by omega)
  | lpar =>
    simp only [token]
    unfold operatorL
    split
    · trivial
    · refine (cat_safe (s := { s with cursub := s.cursub + 1, nbra := s.nbra + 1 }) (by omega) h).bind fun s' h1 => ?_
      exact (pushator_safe h1).bind fun s'' h2 => h2
  | rpar =>
    simp only [token]
    unfold operatorR
    split
    · trivial
    · refine (evaluntil_safe (by omega) (by omega) h).bind fun ⟨o, x⟩ h1 => h1.1.mono (by omega)
  | bar => exact operator_safe (by omega) (by simp) h
  | star | plus => exact (operator_safe (by omega) (by simp) h).mono fun s' h1 => h1.mono (by simp only [Ator.weight]; omega)
  | opt => exact operator_safe (by omega) (by simp) h

theorem tokens_safe {cap : Nat} : ∀ {ts : List (Tok Op)} {B : Nat} {s : PS}, B + 2 * ts.length ≤ cap → Stacks B s.ators s.x →
    (tokens cap ts s).Safe (fun s' => Stacks (B + 2 * ts.length) s'.ators s'.x)
  | [], B, s, _, h => h
  | t :: ts, B, s, hB, h => by
    simp only [List.length_cons] at hB ⊢
    refine (token_safe (by omega) h t).bind fun s' h1 => ?_
    exact (tokens_safe (ts := ts) (by omega) h1).mono fun s'' h2 => h2.mono (by omega)

/-! ### the optimiser -/

/-- The exits are set, and lead forward from a `TOK_NOP`. -/
theorem frag_next {h : List Inst} : ∀ {e : Re Op} {a b f l : Nat}, Frag h e a b f l → All (· ≠ .nop) e → ∀ i, a ≤ i → i < b → i ≠ l →
    ∃ n, nextAt h i = some n ∧ n < b ∧ (opAt h i = some .nop → i < n)
  | .one o, a, b, f, l, hf, hn, i, i1, i2, i3 => by
    obtain ⟨rfl, rfl, rfl, h4⟩ := hf
    omega
  | .grp k e, a, b, f, l, hf, hn, i, i1, i2, i3 => by
    obtain ⟨b', f', l', h1, rfl, rfl, rfl, h5, h6, h7⟩ := hf
    have hb := frag_bounds h1
    by_cases hc : i < l
    · by_cases he : i = l'
      · subst he; exact ⟨l, h7, by omega, fun _ => by omega⟩
      · obtain ⟨n, q1, q2, q3⟩ := frag_next h1 hn i i1 hc he
        exact ⟨n, q1, by omega, q3⟩
    · have : i = l + 1 := by omega
      subst this
      refine ⟨f', by unfold nextAt; rw [h5]; rfl, by omega, fun e => ?_⟩
      rw [opAt_of h5] at e; cases e
  | .alt e1 e2, a, b, f, l, hf, hn, i, i1, i2, i3 => by
    obtain ⟨m, b', f1, l1, f2, l2, h1, h2, rfl, rfl, rfl, h5, h6, h7, h8⟩ := hf
    have hb1 := frag_bounds h1
    have hb2 := frag_bounds h2
    by_cases hc : i < l
    · by_cases he : i = l1
      · subst he; exact ⟨l, h7, by omega, fun _ => by omega⟩
      · by_cases he2 : i = l2
        · subst he2; exact ⟨l, h8, by omega, fun _ => by omega⟩
        · by_cases hm : i < m
          · obtain ⟨n, q1, q2, q3⟩ := frag_next h1 hn.1 i i1 hm he
            exact ⟨n, q1, by omega, q3⟩
          · obtain ⟨n, q1, q2, q3⟩ := frag_next h2 hn.2 i (by omega) hc he2
            exact ⟨n, q1, by omega, q3⟩
    · have : i = l + 1 := by omega
      subst this
      refine ⟨f2, by unfold nextAt; rw [h5]; rfl, by omega, fun e => ?_⟩
      rw [opAt_of h5] at e; cases e
  | .cat e1 e2, a, b, f, l, hf, hn, i, i1, i2, i3 => by
    obtain ⟨m, l1, f2, h1, h2, h3⟩ := hf
    have hb1 := frag_bounds h1
    have hb2 := frag_bounds h2
    by_cases hm : i < m
    · by_cases he : i = l1
      · subst he; exact ⟨f2, h3, by omega, fun _ => by omega⟩
      · obtain ⟨n, q1, q2, q3⟩ := frag_next h1 hn.1 i i1 hm he
        exact ⟨n, q1, by omega, q3⟩
    · exact frag_next h2 hn.2 i (by omega) i2 i3
  | .star e, a, b, f, l, hf, hn, i, i1, i2, i3 => by
    obtain ⟨b', f1, l1, h1, rfl, rfl, rfl, h4, h5⟩ := hf
    have hb1 := frag_bounds h1
    by_cases he : i = l1
    · subst he; exact ⟨l, h5, by omega, fun _ => by omega⟩
    · obtain ⟨n, q1, q2, q3⟩ := frag_next (e := e) h1 hn i i1 (by omega) he
      exact ⟨n, q1, by omega, q3⟩
  | .plus e, a, b, f, l, hf, hn, i, i1, i2, i3 => by
    obtain ⟨b', l1, h1, rfl, rfl, h4, h5⟩ := hf
    have hb1 := frag_bounds h1
    by_cases he : i = l1
    · subst he; exact ⟨l, h5, by omega, fun _ => by omega⟩
    · obtain ⟨n, q1, q2, q3⟩ := frag_next (e := e) h1 hn i i1 (by omega) he
      exact ⟨n, q1, by omega, q3⟩
  | .opt e, a, b, f, l, hf, hn, i, i1, i2, i3 => by
    obtain ⟨b', f1, l1, h1, rfl, rfl, rfl, h4, h5, h6⟩ := hf
    have hb1 := frag_bounds h1
    by_cases hc : i < f
    · by_cases he : i = l1
      · subst he; exact ⟨f + 1, h6, by omega, fun _ => by omega⟩
      · obtain ⟨n, q1, q2, q3⟩ := frag_next (e := e) h1 hn i i1 (by omega) he
        exact ⟨n, q1, by omega, q3⟩
    · have : i = f := by omega
      subst this
      refine ⟨i + 1, by unfold nextAt; rw [h4]; rfl, by omega, fun _ => by omega⟩

/-- The instructions up to the last one, `z`, which is the end. -/
structure Forward (h : List Inst) (z : Nat) : Prop where
  fin : opAt h z = some .fin
  next : ∀ i, i < z → ∃ n, nextAt h i = some n ∧ n ≤ z ∧ (opAt h i = some .nop → i < n)

theorem sk_le {h : List Inst} {z : Nat} (hf : Forward h z) {k K : Nat} (a : Sk h k K) (hk : k ≤ z) : k ≤ K ∧ K ≤ z := by
  induction a with
  | here => exact ⟨Nat.le_refl _, hk⟩
  | @nop k n K h1 h2 _ ih =>
    have hkz : k ≠ z := by rintro rfl; rw [hf.fin] at h1; cases h1
    obtain ⟨n', q1, q2, q3⟩ := hf.next k (by omega)
    rw [h2] at q1; cases q1
    have := q3 h1
    have := ih q2
    omega

theorem skipNop_def {g : List Inst} {z : Nat} (hf : Forward g z) : ∀ {f k : Nat}, k ≤ z → z - k < f → ∃ t, skipNop g f k = some t
  | 0, _, _, h => by omega
  | f + 1, k, hk, hlt => by
    rw [skipNop]
    have hz := opAt_lt hf.fin
    have hI : g[k]? = some g[k] := List.getElem?_eq_getElem (by omega)
    rw [hI, Option.bind_some]
    split
    · rename_i hn
      have hop : opAt g k = some .nop := by rw [opAt_of hI, hn]
      have hkz : k ≠ z := by rintro rfl; rw [hf.fin] at hop; cases hop
      obtain ⟨n, q1, q2, q3⟩ := hf.next k (by omega)
      have : g[k].next = some n := by unfold nextAt at q1; rw [hI] at q1; exact q1
      rw [this, Option.bind_some]
      have := q3 hop
      exact skipNop_def hf q2 (by omega)
    · exact ⟨k, rfl⟩

theorem forward_opt {h g : List Inst} {z k : Nat} (hf : Forward h z) (ho : OInv h g k) : Forward g z := by
  refine ⟨by rw [ho.op]; exact hf.fin, fun i hi => ?_⟩
  rw [ho.op]
  by_cases hc : i < k
  · obtain ⟨n, K, q1, q2, q3⟩ := ho.done i hc
    obtain ⟨n', p1, p2, p3⟩ := hf.next i hi
    rw [q1] at p1; cases p1
    have := sk_le hf q2 p2
    exact ⟨K, q3, this.2, fun e => by have := p3 e; omega⟩
  · rw [nextAt_congr (ho.rest i (by omega))]
    exact hf.next i hi

theorem optimize_def {h : List Inst} {z : Nat} (hf : Forward h z) (hz : z < h.length) : ∀ {f k : Nat} {g : List Inst}, OInv h g k → k ≤ z → z - k < f → ∃ h', optimize g f k = some h'
  | 0, _, _, _, _, h => by omega
  | f + 1, k, g, ho, hk, hlt => by
    rw [optimize]
    have hlen := ho.len
    have hI : g[k]? = some g[k] := List.getElem?_eq_getElem (by omega)
    rw [hI, Option.bind_some]
    split
    · exact ⟨g, rfl⟩
    · rename_i hne
      have hkz : k ≠ z := by
        rintro rfl
        have := hf.fin
        rw [← ho.op, opAt_of hI] at this
        exact hne (Option.some.inj this)
      have hg := forward_opt hf ho
      obtain ⟨n, q1, q2, -⟩ := hg.next k (by omega)
      have hnx : g[k].next = some n := by unfold nextAt at q1; rw [hI] at q1; exact q1
      rw [hnx, Option.bind_some]
      obtain ⟨t, ht⟩ := skipNop_def (f := g.length + 1) hg q2 (by omega)
      rw [ht, Option.bind_some]
      have hsk := sk_back ho (skip_sk ht)
      refine optimize_def hf hz ?_ (by omega) (by omega)
      refine ⟨by simp [ho.len], fun i => ?_, fun i hki => ?_, fun i hik => ?_⟩
      · rw [← ho.op]
        unfold opAt
        rw [List.getElem?_set]
        split
        · rename_i hj; subst hj; rw [hI, if_pos (by omega)]; rfl
        · rfl
      · rw [List.getElem?_set_ne (by omega)]
        exact ho.rest i (by omega)
      · by_cases hc : i = k
        · subst hc
          refine ⟨n, t, ?_, hsk, ?_⟩
          · rw [← nextAt_congr (ho.rest i (Nat.le_refl _))]; exact q1
          · unfold nextAt; rw [List.getElem?_set_self (by omega)]; rfl
        · obtain ⟨n', K', h1, h2, h3⟩ := ho.done i (by omega)
          exact ⟨n', K', h1, h2, by rw [nextAt_congr (List.getElem?_set_ne (Ne.symm hc))]; exact h3⟩

theorem frag_forward {h : List Inst} {A : Re Op} {f l : Nat} (hA : All (· ≠ .nop) A) (hf : Frag h (.cat A (.one .fin)) 0 h.length f l) : Forward h (h.length - 1) := by
  have hn := frag_next hf ⟨hA, by simp [All]⟩
  obtain ⟨m, l1, f2, h1, h2, h3⟩ := hf
  obtain ⟨rfl, rfl, hlen, h4⟩ := h2
  have e : h.length - 1 = l := by omega
  rw [e]
  refine ⟨h4, fun i hi => ?_⟩
  obtain ⟨n, q1, q2, q3⟩ := hn i (by omega) (by omega) (by omega)
  exact ⟨n, q1, by omega, q3⟩

/-- The compiler is never undefined, if there is memory for two instructions per symbol and one more. -/
theorem compile_not_ub {cap : Nat} {ic : Bool} {ts : List (Tok Op)} (hat : Atoms ts) (hcap : 2 * ts.length + 1 ≤ cap) : compile cap ic ts ≠ .ub := by
  have h0 : Stacks 0 ps0.ators ps0.x := ⟨fun n hn => (by cases hn), ⟨[], rfl⟩, by simp [ps0, weights, Ator.weight]⟩
  have : (compile cap ic ts).Safe (fun _ => True) := by
    unfold compile
    have ht := tokens_safe (cap := cap) (ts := ts) (B := 0) (by omega) h0
    cases e1 : tokens cap ts ps0 with
    | ub => rw [e1] at ht; cases ht
    | err => trivial
    | ok s1 =>
      rw [e1] at ht
      have hev := evaluntil_safe (cap := cap) (pri := 1) (by omega) (by omega) ht
      simp only [R.bind]
      cases e2 : evaluntil cap 1 s1.ators s1.x with
      | ub => rw [e2] at hev; cases hev
      | err => trivial
      | ok y =>
        obtain ⟨o2, x2⟩ := y
        rw [e2] at hev
        simp only
        have hop := operand_safe (cap := cap) (op := .fin) (s := { s1 with x := x2, ators := o2 }) (by omega) hev.1
        cases e3 : operand cap { s1 with x := x2, ators := o2 } .fin with
        | ub => rw [e3] at hop; cases hop
        | err => trivial
        | ok s3 =>
          rw [e3] at hop
          simp only
          have hev2 := evaluntil_safe (cap := cap) (pri := 1) (by omega) (by omega) hop.1
          cases e4 : evaluntil cap 1 s3.ators s3.x with
          | ub => rw [e4] at hev2; cases hev2
          | err => trivial
          | ok y =>
            obtain ⟨o4, x4⟩ := y
            rw [e4] at hev2
            simp only
            split
            · trivial
            · rename_i hnb
              cases hands : x4.ands with
              | nil => exact absurd hands (hev2.2 hop.2)
              | cons nd nds =>
                simp only
                obtain ⟨e, hf, hcase⟩ := pre_frag e1 e2 e3 e4 (by omega) hands
                have hz : Forward x4.h (x4.h.length - 1) := by
                  rcases hcase with ⟨-, -, rfl⟩ | ⟨A, e', hg, hq, rfl⟩
                  · obtain ⟨h1, h2, h3, h4⟩ := hf
                    refine ⟨by rw [h3]; exact h4, fun i hi => by omega⟩
                  · refine frag_forward ((hq.all _).2 (G_all hg (fun o ho e => ?_))) hf
                    subst e
                    have := hat _ ho
                    cases this
                have hlt := opAt_lt hz.fin
                obtain ⟨g, hg⟩ := optimize_def hz (by omega) (f := x4.h.length + 1) (k := 0) (g := x4.h) ⟨rfl, fun _ => rfl, fun _ _ => rfl, fun i hi => by omega⟩ (by omega) (by omega)
                rw [hg]
                trivial
  intro e
  rw [e] at this
  cases this

end Verif.Regex
