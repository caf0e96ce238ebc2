import Verif.Regex.Safe
/- The compiler accepts the patterns of the grammar, up to its limits. -/
namespace Verif.Regex
open Spec (Tok Re G)

/-- The errors about limits. -/
def limit : Err → Bool
  | .operandOverflow | .operatorOverflow | .tooManySub => true
  | _ => false

/-- Undefined, an error about limits, or a value with the property. -/
def R.Fine {β : Type} (Q : β → Prop) : R β → Prop
  | .ub => True
  | .err e => limit e = true
  | .ok b => Q b

theorem R.Fine.bind {β γ : Type} {Q : β → Prop} {Q' : γ → Prop} {r : R β} {f : β → R γ} (h : r.Fine Q) (hf : ∀ b, Q b → (f b).Fine Q') : (r.bind f).Fine Q' := by
  cases r with
  | ub => exact h
  | err => exact h
  | ok b => exact hf b h

theorem R.Fine.mono {β : Type} {Q Q' : β → Prop} {r : R β} (h : r.Fine Q) (hq : ∀ b, Q b → Q' b) : r.Fine Q' := by
  cases r with
  | ub => exact h
  | err => exact h
  | ok b => exact hq b h

def Ator.bin : Ator → Nat
  | .or | .cat => 1
  | _ => 0

def Ator.lb : Ator → Nat
  | .lbra => 1
  | _ => 0

def bins (l : List (Ator × Nat)) : Nat := (l.map (·.1.bin)).sum
def lbs (l : List (Ator × Nat)) : Nat := (l.map (·.1.lb)).sum

theorem bins_cons (t : Ator) (id : Nat) (l : List (Ator × Nat)) : bins ((t, id) :: l) = t.bin + bins l := rfl
theorem lbs_cons (t : Ator) (id : Nat) (l : List (Ator × Nat)) : lbs ((t, id) :: l) = t.lb + lbs l := rfl

theorem popand_fine {a : List Node} (h : 0 < a.length) : (popand a).Fine (fun x => x.2.length + 1 = a.length) := by
  cases a with
  | nil => simp at h
  | cons n a => simp [popand, R.Fine]

theorem newInst_fine {cap : Nat} {h : List Inst} {op : Op} {nx : Option Nat} : (newInst cap h op nx).Fine (fun _ => True) := by
  unfold newInst; split <;> trivial

theorem setNext_fine {h : List Inst} {p k : Nat} : (setNext h p k).Fine (fun _ => True) := by
  unfold setNext; split <;> trivial

theorem pushand_fine {a : List Node} {f l : Nat} : (pushand a f l).Fine (fun a' => a'.length = a.length + 1) := by
  unfold pushand
  split
  · simp [R.Fine]
  · rfl

theorem reduce_fine {cap : Nat} {x : Heap} {t : Ator} {id : Nat} (ht : t ≠ .bot) (hx : 1 + t.bin ≤ x.ands.length) :
    (reduce cap x t id).Fine (fun x' => x'.ands.length + t.bin = x.ands.length) := by
  cases t with
  | bot => exact absurd rfl ht
  | lbra =>
    simp only [Ator.bin] at hx ⊢
    refine (popand_fine (by omega)).bind fun ⟨n1, a⟩ h1 => ?_
    refine newInst_fine.bind fun h _ => ?_
    refine setNext_fine.bind fun h' _ => ?_
    refine newInst_fine.bind fun h'' _ => ?_
    refine pushand_fine.bind fun a' h5 => ?_
    simp only [R.Fine] at *
    omega
  | or =>
    simp only [Ator.bin] at hx ⊢
    refine (popand_fine (by omega)).bind fun ⟨n2, a⟩ h0 => ?_
    simp only at h0
    refine (popand_fine (by omega)).bind fun ⟨n1, a'⟩ h1 => ?_
    refine newInst_fine.bind fun h _ => ?_
    refine setNext_fine.bind fun h' _ => ?_
    refine setNext_fine.bind fun h' _ => ?_
    refine newInst_fine.bind fun h'' _ => ?_
    refine pushand_fine.bind fun a' h5 => ?_
    simp only [R.Fine] at *
    omega
  | cat =>
    simp only [Ator.bin] at hx ⊢
    refine (popand_fine (by omega)).bind fun ⟨n2, a⟩ h0 => ?_
    simp only at h0
    refine (popand_fine (by omega)).bind fun ⟨n1, a'⟩ h1 => ?_
    refine setNext_fine.bind fun h' _ => ?_
    refine pushand_fine.bind fun a' h5 => ?_
    simp only [R.Fine] at *
    omega
  | star | plus =>
    simp only [Ator.bin] at hx ⊢
    refine (popand_fine (by omega)).bind fun ⟨n2, a⟩ h0 => ?_
    refine newInst_fine.bind fun h _ => ?_
    refine setNext_fine.bind fun h' _ => ?_
    refine pushand_fine.bind fun a' h5 => ?_
    simp only [R.Fine] at *
    omega
  | quest =>
    simp only [Ator.bin] at hx ⊢
    refine (popand_fine (by omega)).bind fun ⟨n2, a⟩ h0 => ?_
    refine newInst_fine.bind fun h _ => ?_
    refine newInst_fine.bind fun h' _ => ?_
    refine setNext_fine.bind fun h' _ => ?_
    refine pushand_fine.bind fun a' h5 => ?_
    simp only [R.Fine] at *
    omega

/-- The operators, with the bottom mark. -/
def Bot (o : List (Ator × Nat)) : Prop := ∃ l, o = l ++ [(.bot, 0)] ∧ ∀ x ∈ l, x.1 ≠ .bot

theorem bot_tail {t : Ator} {id : Nat} {ts : List (Ator × Nat)} (h : Bot ((t, id) :: ts)) : (t = .bot ∧ id = 0 ∧ ts = []) ∨ (t ≠ .bot ∧ Bot ts) := by
  obtain ⟨l, h1, h2⟩ := h
  cases l with
  | nil =>
    simp only [List.nil_append, List.cons.injEq, Prod.mk.injEq] at h1
    exact .inl ⟨h1.1.1, h1.1.2, h1.2⟩
  | cons q l =>
    simp only [List.cons_append, List.cons.injEq] at h1
    obtain ⟨rfl, h1⟩ := h1
    exact .inr ⟨h2 (t, id) (by simp), l, h1, fun x hx => h2 x (by simp [hx])⟩

/-- With an operand on top, evaluating operators is fine. The parenthesis is found. -/
theorem evaluntil_fine {cap pri : Nat} (hp : 1 ≤ pri) : ∀ {o : List (Ator × Nat)} {x : Heap}, Bot o → x.ands.length = 1 + bins o → (pri = 2 → 0 < lbs o) →
    (evaluntil cap pri o x).Fine (fun y => Bot y.1 ∧ y.2.ands.length = 1 + bins y.1 ∧ (3 < pri → lbs y.1 = lbs o) ∧ (pri = 2 → lbs y.1 + 1 = lbs o) ∧
      (pri = 1 → lbs o = 0 → y.1 = [(.bot, 0)]))
  | [], x, hb, _, _ => by
    obtain ⟨l, h1, -⟩ := hb
    simp at h1
  | (t, id) :: ts, x, hb, hx, hl => by
    rw [evaluntil]
    have hbt := bot_tail hb
    simp only [bins, lbs, List.map_cons, List.sum_cons] at hx hl
    split
    · rename_i hc
      rcases hbt with ⟨rfl, rfl, rfl⟩ | ⟨hne, hbt⟩
      · rcases hc with hc | hc
        · have := hl hc; simp [Ator.lb] at this
        · simp only [Ator.prec] at hc; omega
      · refine (reduce_fine hne (by omega)).bind fun x' h1 => ?_
        have hx' : x'.ands.length = 1 + bins ts := by unfold bins; omega
        split
        · rename_i ht
          subst ht
          refine ⟨hbt, hx', fun h3 => ?_, fun h2 => ?_, fun h1 h0 => ?_⟩
          · rcases hc with hc | hc
            · omega
            · simp only [Ator.prec] at hc; omega
          · simp only [lbs, List.map_cons, List.sum_cons, Ator.lb]; omega
          · simp only [lbs, List.map_cons, List.sum_cons, Ator.lb] at h0; omega
        · rename_i ht
          have hlb : t.lb = 0 := by cases t <;> first | rfl | exact absurd rfl ht
          have he : lbs ((t, id) :: ts) = lbs ts := by simp only [lbs, List.map_cons, List.sum_cons, hlb]; omega
          rw [he]
          exact evaluntil_fine hp hbt hx' (fun h => by have := hl h; unfold lbs; omega)
    · rename_i hc
      refine ⟨hb, by simp only [bins, List.map_cons, List.sum_cons]; omega, fun _ => rfl, fun h => absurd (.inl h) hc, fun h1 _ => ?_⟩
      rcases hbt with ⟨rfl, rfl, rfl⟩ | ⟨hne, -⟩
      · rfl
      · have := prec_pos hne
        exact absurd (.inr (by omega)) hc

/-- Where an operand is complete, and where one is awaited. -/
structure After (s : PS) : Prop where
  last : s.lastand = true
  bot : Bot s.ators
  ands : s.x.ands.length = 1 + bins s.ators
  nbra : lbs s.ators = s.nbra

structure Before (s : PS) : Prop where
  last : s.lastand = false
  bot : Bot s.ators
  ands : s.x.ands.length = bins s.ators
  nbra : lbs s.ators = s.nbra

theorem bot_cons {t : Ator} {id : Nat} {o : List (Ator × Nat)} (h : Bot o) (ht : t ≠ .bot) : Bot ((t, id) :: o) := by
  obtain ⟨l, h1, h2⟩ := h
  refine ⟨(t, id) :: l, by rw [h1]; rfl, fun x hx => ?_⟩
  rcases List.mem_cons.1 hx with rfl | hx
  · exact ht
  · exact h2 x hx

theorem pushator_fine {s : PS} {t : Ator} : (pushator s t).Fine (fun s' => s' = { s with ators := (t, s.cursub) :: s.ators }) := by
  unfold pushator
  split
  · rfl
  · rfl

theorem operator_fine {cap : Nat} {s : PS} {t : Ator} (ht : 3 < t.prec) (h : After s) :
    (operator cap s t).Fine (fun s' => s'.lastand = t.like ∧ Bot s'.ators ∧ s'.x.ands.length = 1 + bins s'.ators - t.bin ∧ lbs s'.ators = s'.nbra ∧ s'.nbra = s.nbra) := by
  unfold operator
  have hne : t ≠ .bot := by rintro rfl; simp [Ator.prec] at ht
  refine (evaluntil_fine (pri := t.prec) (by omega) h.bot h.ands (by omega)).bind fun ⟨o, x⟩ h1 => ?_
  refine pushator_fine.bind fun s' h2 => ?_
  subst h2
  simp only at h1
  refine ⟨rfl, bot_cons h1.1 hne, ?_, ?_, rfl⟩
  · have := h1.2.1
    simp only
    rw [bins_cons]
    omega
  · have hlb : t.lb = 0 := by cases t <;> first | rfl | simp [Ator.prec] at ht
    have := h1.2.2.1 ht
    have := h.nbra
    simp only
    rw [lbs_cons]
    omega

theorem cat_fine {cap : Nat} {s : PS} (h : Before s ∨ After s) : (if s.lastand then operator cap s .cat else .ok s).Fine (fun s' => Before s' ∧ s'.nbra = s.nbra) := by
  rcases h with h | h
  · rw [h.last]; exact ⟨h, rfl⟩
  · rw [h.last]
    refine (operator_fine (by simp [Ator.prec]) h).mono fun s' h1 => ?_
    obtain ⟨h1, h2, h3, h4, h5⟩ := h1
    exact ⟨⟨h1, h2, by simp only [Ator.bin] at h3; omega, h4⟩, h5⟩

theorem operand_fine {cap : Nat} {s : PS} {op : Op} (h : Before s ∨ After s) : (operand cap s op).Fine (fun s' => After s' ∧ s'.nbra = s.nbra) := by
  unfold operand
  refine (cat_fine h).bind fun s' ⟨h1, h2⟩ => ?_
  refine newInst_fine.bind fun hh _ => ?_
  refine pushand_fine.bind fun a h3 => ?_
  exact ⟨⟨rfl, h1.bot, by simp only; rw [h3, h1.ands]; omega, h1.nbra⟩, h2⟩

theorem tokens_app {cap : Nat} : ∀ {a b : List (Tok Op)} {s : PS}, tokens cap (a ++ b) s = (tokens cap a s).bind (tokens cap b)
  | [], _, _ => rfl
  | t :: a, b, s => by
    simp only [List.cons_append, tokens]
    cases token cap s t with
    | ub => rfl
    | err => rfl
    | ok s' => exact tokens_app (a := a)

theorem tokens_one {cap : Nat} {t : Tok Op} {s : PS} : tokens cap [t] s = token cap s t := by
  simp only [tokens]
  cases token cap s t <;> rfl

theorem G_fine {cap lv n n' : Nat} {ts : List (Tok Op)} {e : Re Op} (h : G lv n ts e n') : ∀ s, Before s ∨ After s →
    (tokens cap ts s).Fine (fun s' => After s' ∧ s'.nbra = s.nbra) := by
  have post : ∀ {t : Ator} {s : PS}, t.like = true → After s → (operator cap s t).Fine (fun s' => After s' ∧ s'.nbra = s.nbra) := by
    intro t s ht ha
    refine (operator_fine (by cases t <;> first | (cases ht; done) | simp [Ator.prec]) ha).mono fun s' h1 => ?_
    obtain ⟨h1, h2, h3, h4, h5⟩ := h1
    have hb : t.bin = 0 := by cases t <;> first | rfl | cases ht
    exact ⟨⟨by rw [h1, ht], h2, by omega, h4⟩, h5⟩
  induction h with
  | one => intro s hs; rw [tokens_one]; exact operand_fine hs
  | grp _ ih =>
    intro s hs
    simp only [tokens, token]
    unfold operatorL
    split
    · rfl
    · have hs' : Before { s with cursub := s.cursub + 1, nbra := s.nbra + 1 } ∨ After { s with cursub := s.cursub + 1, nbra := s.nbra + 1 } → True := fun _ => trivial
      -- the count of parentheses is ahead by one until the operator is pushed
      have hcat : (if s.lastand then operator cap { s with cursub := s.cursub + 1, nbra := s.nbra + 1 } .cat else .ok { s with cursub := s.cursub + 1, nbra := s.nbra + 1 }).Fine
          (fun s' => s'.lastand = false ∧ Bot s'.ators ∧ s'.x.ands.length = bins s'.ators ∧ lbs s'.ators + 1 = s'.nbra ∧ s'.nbra = s.nbra + 1) := by
        rcases hs with h | h
        · rw [h.last]
          exact ⟨rfl, h.bot, h.ands, by have := h.nbra; simp only; omega, rfl⟩
        · rw [h.last]
          simp only [if_true]
          unfold operator
          refine (evaluntil_fine (pri := Ator.cat.prec) (by simp [Ator.prec]) h.bot h.ands (by simp [Ator.prec])).bind fun ⟨o, x⟩ h1 => ?_
          refine pushator_fine.bind fun s' h2 => ?_
          subst h2
          simp only [R.Fine] at *
          refine ⟨rfl, bot_cons h1.1 (by simp), ?_, ?_, trivial⟩
          · have := h1.2.1
            rw [bins_cons, show Ator.cat.bin = 1 from rfl]
            omega
          · have := h1.2.2.1 (by simp [Ator.prec])
            have := h.nbra
            rw [lbs_cons, show Ator.cat.lb = 0 from rfl]
            omega
      refine R.Fine.bind (Q := fun s' => Before s' ∧ s'.nbra = s.nbra + 1) ?_ fun s1 h1 => ?_
      · refine hcat.bind fun s1 h1 => ?_
        refine pushator_fine.bind fun s2 h2 => ?_
        subst h2
        obtain ⟨-, q2, q3, q4, q5⟩ := h1
        refine ⟨⟨rfl, bot_cons q2 (by simp), ?_, ?_⟩, q5⟩
        · simp only
          rw [bins_cons, show Ator.lbra.bin = 0 from rfl]
          omega
        · simp only
          rw [lbs_cons, show Ator.lbra.lb = 0 + 1 from rfl]
          omega
      · rw [tokens_app]
        refine (ih s1 (.inl h1.1)).bind fun s2 h2 => ?_
        rw [tokens_one]
        simp only [token]
        unfold operatorR
        have hn : s2.nbra = s.nbra + 1 := by rw [h2.2, h1.2]
        rw [if_neg (by omega)]
        have hl := h2.1.nbra
        refine (evaluntil_fine (pri := 2) (by omega) h2.1.bot h2.1.ands (fun _ => by omega)).bind fun ⟨o, x⟩ h3 => ?_
        refine ⟨⟨rfl, h3.1, h3.2.1, ?_⟩, by simp only; omega⟩
        have := h3.2.2.2.1 rfl
        simp only at this ⊢
        omega
  | star _ ih =>
    intro s hs
    rw [tokens_app]
    refine (ih s hs).bind fun s1 h1 => ?_
    rw [tokens_one]
    exact (post (t := .star) rfl h1.1).mono fun s2 h2 => ⟨h2.1, by rw [h2.2, h1.2]⟩
  | plus _ ih =>
    intro s hs
    rw [tokens_app]
    refine (ih s hs).bind fun s1 h1 => ?_
    rw [tokens_one]
    exact (post (t := .plus) rfl h1.1).mono fun s2 h2 => ⟨h2.1, by rw [h2.2, h1.2]⟩
  | opt _ ih =>
    intro s hs
    rw [tokens_app]
    refine (ih s hs).bind fun s1 h1 => ?_
    rw [tokens_one]
    exact (post (t := .quest) rfl h1.1).mono fun s2 h2 => ⟨h2.1, by rw [h2.2, h1.2]⟩
  | item _ ih => exact ih
  | seq _ ih => exact ih
  | cat _ _ ih1 ih2 =>
    intro s hs
    rw [tokens_app]
    refine (ih1 s hs).bind fun s1 h1 => ?_
    exact (ih2 s1 (.inr h1.1)).mono fun s2 h2 => ⟨h2.1, by rw [h2.2, h1.2]⟩
  | alt _ _ ih1 ih2 =>
    intro s hs
    rw [tokens_app]
    refine (ih1 s hs).bind fun s1 h1 => ?_
    simp only [tokens, token]
    refine R.Fine.bind (Q := fun s' => Before s' ∧ s'.nbra = s1.nbra) ?_ fun s2 h2 => ?_
    · refine (operator_fine (by simp [Ator.prec]) h1.1).mono fun s' h1 => ?_
      obtain ⟨h1, h2, h3, h4, h5⟩ := h1
      exact ⟨⟨h1, h2, by simp only [Ator.bin] at h3; omega, h4⟩, h5⟩
    · exact (ih2 s2 (.inl h2.1)).mono fun s3 h3 => ⟨h3.1, by rw [h3.2, h2.2, h1.2]⟩

theorem compile_fine {cap n : Nat} {ic : Bool} {ts : List (Tok Op)} {e : Re Op} (h : G 0 0 ts e n) : (compile cap ic ts).Fine (fun _ => True) := by
  have h0 : Before ps0 := ⟨rfl, ⟨[], rfl, by simp⟩, by simp [ps0, bins, Ator.bin], by simp [ps0, lbs, Ator.lb]⟩
  unfold compile
  refine (G_fine h ps0 (.inl h0)).bind fun s1 h1 => ?_
  have hn1 : s1.nbra = 0 := h1.2
  refine (evaluntil_fine (pri := 1) (by omega) h1.1.bot h1.1.ands (by omega)).bind fun ⟨o, x⟩ h2 => ?_
  have ho := h2.2.2.2.2 rfl (by rw [h1.1.nbra, hn1])
  simp only at ho
  have ha : After { s1 with x := x, ators := o } := ⟨h1.1.last, h2.1, h2.2.1, by rw [ho, hn1]; rfl⟩
  refine (operand_fine (.inr ha)).bind fun s3 h3 => ?_
  refine (evaluntil_fine (pri := 1) (by omega) h3.1.bot h3.1.ands (by omega)).bind fun ⟨o4, x4⟩ h4 => ?_
  have hn3 : s3.nbra = 0 := by rw [h3.2]; exact hn1
  simp only
  rw [if_neg (by omega)]
  have := h4.2.1
  simp only at this
  cases hx : x4.ands with
  | nil => trivial
  | cons nd nds => simp only; split <;> trivial

end Verif.Regex
