import Verif.Regex.Gram
/- The compiler as a whole: a program is the code of the expression that the grammar assigns to the symbols. -/
namespace Verif.Regex
open Spec (Tok Re G Parse Groups Matches)

def nlb (l : List (Ator × Nat)) : Nat := (l.filter fun p => p.1 = .lbra).length

theorem evalA_shape {pri : Nat} (hpri : pri ≤ 2 ∨ 4 ≤ pri) {k : Nat} : ∀ {l l' : List (Ator × Nat)} {es es' : List (Re Op)}, (∀ p ∈ l, p.1 ≠ .bot) →
    evalA pri (l ++ [(.bot, k)]) es = some (l', es') →
    ∃ l'', l' = l'' ++ [(.bot, k)] ∧ (∀ p ∈ l'', p.1 ≠ .bot) ∧ (4 ≤ pri → nlb l'' = nlb l) ∧ (pri = 2 → nlb l'' + 1 = nlb l) ∧ (pri = 1 → nlb l = 0 → l'' = [])
  | [], l', es, es', hb, h => by
    rw [List.nil_append, evalA] at h
    split at h
    · cases es <;> cases h
    · rename_i hc
      cases h
      exact ⟨[], rfl, by simp, fun _ => rfl, fun h => absurd (.inl h) hc, fun _ _ => rfl⟩
  | (t, i) :: l, l', es, es', hb, h => by
    have htb : t ≠ .bot := hb (t, i) (by simp)
    have hb' : ∀ p ∈ l, p.1 ≠ .bot := fun p hp => hb p (by simp [hp])
    rw [List.cons_append, evalA] at h
    split at h
    · rename_i hc
      obtain ⟨es1, -, h⟩ := Option.bind_eq_some_iff.1 h
      split at h
      · rename_i hl
        cases h
        refine ⟨l, rfl, hb', fun h4 => ?_, fun _ => ?_, fun _ hn => ?_⟩
        · rw [hl] at hc; simp only [Ator.prec] at hc; omega
        · simp [nlb, hl]
        · simp [nlb, hl] at hn
      · rename_i hl
        obtain ⟨l'', h1, h2, h3, h4, h5⟩ := evalA_shape hpri hb' h
        have : nlb ((t, i) :: l) = nlb l := by simp [nlb, hl]
        rw [this]
        exact ⟨l'', h1, h2, h3, h4, h5⟩
    · rename_i hc
      cases h
      refine ⟨(t, i) :: l, rfl, hb, fun _ => rfl, fun h => absurd (.inl h) hc, fun h1 _ => ?_⟩
      exfalso
      apply hc
      right
      rw [h1]
      cases t <;> simp_all [Ator.prec]

/-- The operator stack: the bottom, and as many left parentheses as are open. -/
def Stk (p : PA) : Prop := ∃ l, p.ators = l ++ [(.bot, 0)] ∧ (∀ q ∈ l, q.1 ≠ .bot) ∧ nlb l = p.nbra

theorem stk_operator {p p' : PA} {t : Ator} (ht : t ≠ .bot ∧ t ≠ .lbra) (hs : Stk p) (h : operatorA p t = some p') : Stk p' ∧ p'.nbra = p.nbra := by
  obtain ⟨l, h1, h2, h3⟩ := hs
  unfold operatorA at h
  obtain ⟨⟨l', es'⟩, e1, rfl⟩ := Option.map_eq_some_iff.1 h
  rw [h1] at e1
  have hp : 4 ≤ t.prec := by cases t <;> simp_all [Ator.prec]
  obtain ⟨l'', rfl, h5, h6, -, -⟩ := evalA_shape (.inr hp) h2 e1
  refine ⟨⟨(t, p.cursub) :: l'', rfl, ?_, ?_⟩, rfl⟩
  · intro q hq
    rcases List.mem_cons.1 hq with rfl | hq
    · exact ht.1
    · exact h5 q hq
  · have := h6 hp
    simp only [nlb, List.filter_cons] at this ⊢
    rw [if_neg (by simpa using ht.2)]
    rw [this]; exact h3

theorem stk_cat {p p' : PA} (hs : Stk p) (h : catA p = some p') : Stk p' ∧ p'.nbra = p.nbra := by
  unfold catA at h
  split at h
  · exact stk_operator (by decide) hs h
  · cases h; exact ⟨hs, rfl⟩

theorem stk_token {p p' : PA} {t : Tok Op} (hs : Stk p) (h : tokenA p t = some p') : Stk p' := by
  cases t with
  | one o =>
    rw [tokenA] at h
    obtain ⟨q, e1, rfl⟩ := Option.map_eq_some_iff.1 h
    exact (stk_cat hs e1).1
  | lpar =>
    rw [tokenA, catA_lpar] at h
    obtain ⟨q, e1, rfl⟩ := Option.map_eq_some_iff.1 h
    obtain ⟨q', e2, rfl⟩ := Option.map_eq_some_iff.1 e1
    obtain ⟨⟨l, h1, h2, h3⟩, h4⟩ := stk_cat hs e2
    cases hl : p.lastand with
    | false =>
      refine ⟨(.lbra, p.cursub + 1) :: l, ?_, ?_, ?_⟩
      · simp [h1]
      · intro q hq
        rcases List.mem_cons.1 hq with rfl | hq
        · simp
        · exact h2 q hq
      · simp only [nlb, List.filter_cons, decide_true, if_true, List.length_cons] at h3 ⊢
        rw [h3, h4]
    | true =>
      unfold catA at e2
      rw [if_pos hl] at e2
      unfold operatorA at e2
      obtain ⟨x, -, rfl⟩ := Option.map_eq_some_iff.1 e2
      cases l with
      | nil => simp at h1
      | cons y l =>
        simp only [List.cons_append, List.cons.injEq] at h1
        obtain ⟨rfl, h1⟩ := h1
        refine ⟨(.lbra, p.cursub + 1) :: (.cat, p.cursub + 1) :: l, ?_, ?_, ?_⟩
        · simp [h1]
        · intro q hq
          rcases List.mem_cons.1 hq with rfl | hq
          · simp
          · rcases List.mem_cons.1 hq with rfl | hq
            · simp
            · exact h2 q (by simp [hq])
        · simp only [nlb, List.filter_cons, decide_true, if_true, List.length_cons] at h3 ⊢
          simpa using h3
  | rpar =>
    rw [tokenA] at h
    split at h
    · cases h
    · rename_i hn
      obtain ⟨⟨l', es'⟩, e1, rfl⟩ := Option.map_eq_some_iff.1 h
      obtain ⟨l, h1, h2, h3⟩ := hs
      rw [h1] at e1
      obtain ⟨l'', rfl, h5, -, h6, -⟩ := evalA_shape (.inl (by omega)) h2 e1
      have := h6 rfl
      exact ⟨l'', rfl, h5, by simp only; omega⟩
  | bar => exact (stk_operator (by decide) hs h).1
  | star => exact (stk_operator (by decide) hs h).1
  | plus => exact (stk_operator (by decide) hs h).1
  | opt => exact (stk_operator (by decide) hs h).1

theorem stk_tokens : ∀ {ts : List (Tok Op)} {p p' : PA}, Stk p → tokensA ts p = some p' → Stk p'
  | [], p, p', hs, h => by cases h; exact hs
  | t :: ts, p, p', hs, h => by
    rw [tokensA] at h
    obtain ⟨q, e1, h⟩ := Option.bind_eq_some_iff.1 h
    exact stk_tokens (stk_token hs e1) h

/-- What follows the symbols: `TOK_END` is a last operand. -/
def finA (p : PA) : Option (List (Re Op) × Nat × Nat) :=
  (evalA 1 p.ators p.es).bind fun x =>
  (tokenA { p with ators := x.1, es := x.2 } (.one .fin)).bind fun p =>
  (evalA 1 p.ators p.es).map fun x => (x.2, p.nbra, p.cursub)

theorem beg_zero {ts : List (Tok Op)} {n : Nat} {es : List (Re Op)} {l : List (Ator × Nat)} (h : Beg ts n es l 0) : ts = [] ∧ n = 0 ∧ es = [] ∧ l = [(.bot, 0)] := by
  generalize hz : 0 = z at h
  cases h with
  | top => exact ⟨rfl, rfl, rfl, rfl⟩
  | lpar => cases hz

/-- The result for balanced parentheses. -/
theorem fin_shape {ts : List (Tok Op)} {p : PA} {es : List (Re Op)} {n : Nat} (h : tokensA ts pa0 = some p) (hf : finA p = some (es, 0, n)) (hne : es ≠ []) :
    (ts = [] ∧ n = 0 ∧ es = [.one .fin]) ∨ ∃ A e, G 0 0 ts e n ∧ Eqv A e ∧ es = [.cat A (.one .fin)] := by
  have hstk : Stk p := stk_tokens ⟨[], rfl, by simp, rfl⟩ h
  unfold finA at hf
  obtain ⟨⟨l1, es1⟩, e1, hf⟩ := Option.bind_eq_some_iff.1 hf
  obtain ⟨p2, e2, hf⟩ := Option.bind_eq_some_iff.1 hf
  obtain ⟨⟨l3, es3⟩, e3, hf⟩ := Option.map_eq_some_iff.1 hf
  simp only [Prod.mk.injEq] at hf e2
  obtain ⟨rfl, hnb, rfl⟩ := hf
  -- the parentheses are balanced before as well
  have e2' := e2
  rw [tokenA] at e2'
  obtain ⟨q, e4, rfl⟩ := Option.map_eq_some_iff.1 e2'
  obtain ⟨l, h1, h2, h3⟩ := hstk
  have e1' := e1
  rw [h1] at e1'
  obtain ⟨l1', rfl, h5, -, -, h6⟩ := evalA_shape (.inl (by omega)) h2 e1'
  have hnb' : p.nbra = 0 := by
    have key : ∀ {a b : PA}, catA a = some b → b.nbra = a.nbra := by
      intro a b h
      unfold catA at h
      split at h
      · unfold operatorA at h
        obtain ⟨x, -, rfl⟩ := Option.map_eq_some_iff.1 h
        rfl
      · cases h; rfl
    have := key e4
    simp only at this hnb
    omega
  have := h6 rfl (by omega)
  subst this
  rcases tokens_st (us := []) (p := pa0) (.inl ⟨rfl, .beg .top⟩) rfl h with ⟨hs, hb⟩ | hd
  · rw [List.nil_append] at hs
    rcases hs with ⟨hl, hs⟩ | ⟨hl, hs⟩
    · rw [hnb'] at hs
      generalize hes : p.es = es at *
      generalize hat : p.ators = at' at *
      generalize hc : p.cursub = c at *
      cases hs with
      | beg hs =>
        obtain ⟨rfl, rfl, rfl, rfl⟩ := beg_zero hs
        left
        rw [evalA_stop (by omega) (by decide)] at e1
        cases e1
        rw [catA, if_neg (by simp [hl])] at e4
        cases e4
        simp only at e3 ⊢
        rw [List.nil_append, evalA_stop (by omega) (by decide)] at e3
        cases e3
        exact ⟨trivial, trivial, rfl⟩
      | alt hs hg he =>
        obtain ⟨rfl, rfl, rfl, rfl⟩ := beg_zero hs
        cases e1
    · rw [hnb'] at hs
      right
      obtain ⟨ts0, n0, es0, l0, ta, A, A', h0, hg, he, rfl, h5⟩ := p2_or (pri := 1) (by omega) hs
      obtain ⟨rfl, rfl, rfl, rfl⟩ := beg_zero h0
      rw [h5, evalA_stop (by omega) (by decide)] at e1
      cases e1
      rw [catA, if_pos hl, operatorA] at e4
      simp only at e4
      rw [List.nil_append, evalA_stop (by decide) (by decide)] at e4
      cases e4
      refine ⟨A, A', hg, he, ?_⟩
      simp only at e3
      rw [evalA, if_pos (.inr (by decide))] at e3
      simp only [reduceA, Option.bind_some] at e3
      rw [if_neg (by decide), evalA_stop (by decide) (by decide)] at e3
      cases e3
      rfl
  · exfalso
    have d1 := (evalA_len e1).1
    have d2 := (token_len e2).1 rfl
    have d3 := (evalA_len e3).1
    unfold Def at hd
    simp only at d2 d3
    obtain ⟨⟨l4, h7, h8, h9⟩, -⟩ := stk_cat (p := { p with ators := [] ++ [(Ator.bot, 0)], es := es1 }) ⟨[], rfl, by simp, by simp [nlb, hnb']⟩ e4
    rw [h7] at e3
    simp only at hnb
    obtain ⟨l5, rfl, -, -, -, h10⟩ := evalA_shape (.inl (by omega)) h8 e3
    have := h10 rfl (by omega)
    subst this
    have hz : nbin ([] ++ [(Ator.bot, 0)]) = 0 := rfl
    rw [hz] at d1 d2 d3
    have : es3.length ≠ 0 := fun h => hne (List.length_eq_zero_iff.1 h)
    simp only [Bool.toNat_true] at d2
    have hle := Bool.toNat_le p.lastand
    omega

end Verif.Regex
