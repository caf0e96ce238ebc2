import Verif.Regex.Comp
import Mathlib.Tactic.Common
/- The instructions compiled for a subexpression, and how the compiler combines them. -/
namespace Verif.Regex
open Spec (Tok Re)

def opAt (h : List Inst) (k : Nat) : Option Op := (h[k]?).map (·.op)
def nextAt (h : List Inst) (k : Nat) : Option Nat := (h[k]?).bind (·.next)

/-- The instructions `a .. b-1` are the expression `e`: they are entered at `f` and left through the
`next` of `l`, which is not yet set. -/
def Frag (h : List Inst) : Re Op → Nat → Nat → Nat → Nat → Prop
  | .one o, a, b, f, l => f = a ∧ l = a ∧ b = a + 1 ∧ opAt h a = some o
  | .grp k e, a, b, f, l => ∃ b' f' l', Frag h e a b' f' l' ∧ b = b' + 2 ∧ f = b' + 1 ∧ l = b' ∧
      h[b' + 1]? = some ⟨.lbra k, some f'⟩ ∧ opAt h b' = some (.rbra k) ∧ nextAt h l' = some b'
  | .alt e1 e2, a, b, f, l => ∃ m b' f1 l1 f2 l2, Frag h e1 a m f1 l1 ∧ Frag h e2 m b' f2 l2 ∧ b = b' + 2 ∧ f = b' + 1 ∧ l = b' ∧
      h[b' + 1]? = some ⟨.or f1, some f2⟩ ∧ opAt h b' = some .nop ∧ nextAt h l1 = some b' ∧ nextAt h l2 = some b'
  | .cat e1 e2, a, b, f, l => ∃ m l1 f2, Frag h e1 a m f l1 ∧ Frag h e2 m b f2 l ∧ nextAt h l1 = some f2
  | .star e, a, b, f, l => ∃ b' f1 l1, Frag h e a b' f1 l1 ∧ b = b' + 1 ∧ f = b' ∧ l = b' ∧ opAt h b' = some (.or f1) ∧ nextAt h l1 = some b'
  | .plus e, a, b, f, l => ∃ b' l1, Frag h e a b' f l1 ∧ b = b' + 1 ∧ l = b' ∧ opAt h b' = some (.or f) ∧ nextAt h l1 = some b'
  | .opt e, a, b, f, l => ∃ b' f1 l1, Frag h e a b' f1 l1 ∧ b = b' + 2 ∧ f = b' ∧ l = b' + 1 ∧
      h[b']? = some ⟨.or f1, some (b' + 1)⟩ ∧ opAt h (b' + 1) = some .nop ∧ nextAt h l1 = some (b' + 1)

theorem opAt_lt {h : List Inst} {k : Nat} {o : Op} (e : opAt h k = some o) : k < h.length := by
  unfold opAt at e
  by_contra hlt
  rw [List.getElem?_eq_none (by omega)] at e
  cases e

theorem frag_bounds {h : List Inst} : ∀ {e : Re Op} {a b f l : Nat}, Frag h e a b f l → a ≤ f ∧ f < b ∧ a ≤ l ∧ l < b ∧ b ≤ h.length
  | .one o, a, b, f, l, hf => by
    obtain ⟨rfl, rfl, rfl, h4⟩ := hf
    have := opAt_lt h4
    omega
  | .grp k e, a, b, f, l, hf => by
    obtain ⟨b', f', l', h1, rfl, rfl, rfl, h5, -⟩ := hf
    have := frag_bounds h1
    have := (List.getElem?_eq_some_iff.1 h5).1
    omega
  | .alt e1 e2, a, b, f, l, hf => by
    obtain ⟨m, b', f1, l1, f2, l2, h1, h2, rfl, rfl, rfl, h5, -⟩ := hf
    have := frag_bounds h1
    have := frag_bounds h2
    have := (List.getElem?_eq_some_iff.1 h5).1
    omega
  | .cat e1 e2, a, b, f, l, hf => by
    obtain ⟨m, l1, f2, h1, h2, -⟩ := hf
    have := frag_bounds h1
    have := frag_bounds h2
    omega
  | .star e, a, b, f, l, hf => by
    obtain ⟨b', f1, l1, h1, rfl, rfl, rfl, h4, -⟩ := hf
    have := frag_bounds h1
    have := opAt_lt h4
    omega
  | .plus e, a, b, f, l, hf => by
    obtain ⟨b', l1, h1, rfl, rfl, h4, -⟩ := hf
    have := frag_bounds h1
    have := opAt_lt h4
    omega
  | .opt e, a, b, f, l, hf => by
    obtain ⟨b', f1, l1, h1, rfl, rfl, rfl, h4, h5, -⟩ := hf
    have := frag_bounds h1
    have := opAt_lt h5
    omega

/-- Only the `next` of `l` may be changed. -/
theorem frag_keep {h h' : List Inst} : ∀ {e : Re Op} {a b f l : Nat}, Frag h e a b f l → (∀ i, a ≤ i → i < b → i ≠ l → h'[i]? = h[i]?) →
    opAt h' l = opAt h l → Frag h' e a b f l
  | .one o, a, b, f, l, hf, hk, ho => by
    obtain ⟨rfl, rfl, rfl, h4⟩ := hf
    exact ⟨rfl, rfl, rfl, ho.trans h4⟩
  | .grp k e, a, b, f, l, hf, hk, ho => by
    obtain ⟨b', f', l', h1, rfl, rfl, rfl, h5, h6, h7⟩ := hf
    have := frag_bounds h1
    refine ⟨l, f', l', frag_keep h1 (fun i h1 h2 h3 => hk i h1 (by omega) (by omega)) ?_, rfl, rfl, rfl, ?_, ho.trans h6, ?_⟩
    · unfold opAt; rw [hk l' (by omega) (by omega) (by omega)]
    · rw [hk _ (by omega) (by omega) (by omega)]; exact h5
    · unfold nextAt; rw [hk l' (by omega) (by omega) (by omega)]; exact h7
  | .alt e1 e2, a, b, f, l, hf, hk, ho => by
    obtain ⟨m, b', f1, l1, f2, l2, h1, h2, rfl, rfl, rfl, h5, h6, h7, h8⟩ := hf
    have := frag_bounds h1
    have := frag_bounds h2
    refine ⟨m, l, f1, l1, f2, l2, frag_keep h1 (fun i h1 h2 h3 => hk i h1 (by omega) (by omega)) ?_,
      frag_keep h2 (fun i h1 h2 h3 => hk i (by omega) (by omega) (by omega)) ?_, rfl, rfl, rfl, ?_, ho.trans h6, ?_, ?_⟩
    · unfold opAt; rw [hk l1 (by omega) (by omega) (by omega)]
    · unfold opAt; rw [hk l2 (by omega) (by omega) (by omega)]
    · rw [hk _ (by omega) (by omega) (by omega)]; exact h5
    · unfold nextAt; rw [hk l1 (by omega) (by omega) (by omega)]; exact h7
    · unfold nextAt; rw [hk l2 (by omega) (by omega) (by omega)]; exact h8
  | .cat e1 e2, a, b, f, l, hf, hk, ho => by
    obtain ⟨m, l1, f2, h1, h2, h3⟩ := hf
    have := frag_bounds h1
    have := frag_bounds h2
    refine ⟨m, l1, f2, frag_keep h1 (fun i h1 h2 h3 => hk i h1 (by omega) (by omega)) ?_,
      frag_keep h2 (fun i h1 h2 h3 => hk i (by omega) (by omega) (by omega)) ho, ?_⟩
    · unfold opAt; rw [hk l1 (by omega) (by omega) (by omega)]
    · unfold nextAt; rw [hk l1 (by omega) (by omega) (by omega)]; exact h3
  | .star e, a, b, f, l, hf, hk, ho => by
    obtain ⟨b', f1, l1, h1, rfl, rfl, rfl, h4, h5⟩ := hf
    have := frag_bounds h1
    refine ⟨l, f1, l1, frag_keep h1 (fun i h1 h2 h3 => hk i h1 (by omega) (by omega)) ?_, rfl, rfl, rfl, ho.trans h4, ?_⟩
    · unfold opAt; rw [hk l1 (by omega) (by omega) (by omega)]
    · unfold nextAt; rw [hk l1 (by omega) (by omega) (by omega)]; exact h5
  | .plus e, a, b, f, l, hf, hk, ho => by
    obtain ⟨b', l1, h1, rfl, rfl, h4, h5⟩ := hf
    have := frag_bounds h1
    refine ⟨l, l1, frag_keep h1 (fun i h1 h2 h3 => hk i h1 (by omega) (by omega)) ?_, rfl, rfl, ho.trans h4, ?_⟩
    · unfold opAt; rw [hk l1 (by omega) (by omega) (by omega)]
    · unfold nextAt; rw [hk l1 (by omega) (by omega) (by omega)]; exact h5
  | .opt e, a, b, f, l, hf, hk, ho => by
    obtain ⟨b', f1, l1, h1, rfl, rfl, rfl, h4, h5, h6⟩ := hf
    have := frag_bounds h1
    refine ⟨f, f1, l1, frag_keep h1 (fun i h1 h2 h3 => hk i h1 (by omega) (by omega)) ?_, rfl, rfl, rfl, ?_, ho.trans h5, ?_⟩
    · unfold opAt; rw [hk l1 (by omega) (by omega) (by omega)]
    · rw [hk _ (by omega) (by omega) (by omega)]; exact h4
    · unfold nextAt; rw [hk l1 (by omega) (by omega) (by omega)]; exact h6

/-- The operands on the stack, top first, occupy the instructions from 0 to `b`. -/
inductive Rep (h : List Inst) : Nat → List Node → List (Re Op) → Prop
  | nil : Rep h 0 [] []
  | cons {a b n ns e es} : Frag h e a b n.first n.last → Rep h a ns es → Rep h b (n :: ns) (e :: es)

theorem Rep.keep {h h' : List Inst} {b : Nat} {ns : List Node} {es : List (Re Op)} (hr : Rep h b ns es)
    (hk : ∀ i, i < b → h'[i]? = h[i]?) : Rep h' b ns es := by
  induction hr with
  | nil => exact .nil
  | cons hf _ ih =>
    have := frag_bounds hf
    refine .cons (frag_keep hf (fun i _ h2 _ => hk i h2) ?_) (ih (fun i hi => hk i (by omega)))
    unfold opAt; rw [hk _ (by omega)]

theorem Rep.length {h : List Inst} {b : Nat} {ns : List Node} {es : List (Re Op)} (hr : Rep h b ns es) : ns.length = es.length := by
  induction hr with
  | nil => rfl
  | cons _ _ ih => simp [ih]

/-! ### the parser on expressions instead of instructions -/

def reduceA (es : List (Re Op)) (t : Ator) (id : Nat) : Option (List (Re Op)) :=
  match t, es with
  | .lbra, e :: es => some (.grp id e :: es)
  | .or, e2 :: e1 :: es => some (.alt e1 e2 :: es)
  | .cat, e2 :: e1 :: es => some (.cat e1 e2 :: es)
  | .star, e :: es => some (.star e :: es)
  | .plus, e :: es => some (.plus e :: es)
  | .quest, e :: es => some (.opt e :: es)
  | _, _ => none

theorem bind_ok {β γ : Type} {r : R β} {f : β → R γ} {y : γ} (h : r.bind f = .ok y) : ∃ b, r = .ok b ∧ f b = .ok y := by
  cases r with
  | ub => cases h
  | err e => cases h
  | ok b => exact ⟨b, rfl, h⟩

theorem newInst_ok {cap : Nat} {h h' : List Inst} {op : Op} {n : Option Nat} (e : newInst cap h op n = .ok h') : h' = h ++ [⟨op, n⟩] := by
  unfold newInst at e
  split at e
  · cases e; rfl
  · cases e

theorem setNext_ok {h h' : List Inst} {p k : Nat} (e : setNext h p k = .ok h') :
    h'.length = h.length ∧ (∀ i, i ≠ p → h'[i]? = h[i]?) ∧ (∀ i, opAt h' i = opAt h i) ∧ nextAt h' p = some k := by
  unfold setNext at e
  cases hp : h[p]? with
  | none => rw [hp] at e; cases e
  | some i =>
    rw [hp] at e
    simp only [R.ok.injEq] at e
    subst e
    have hlt := (List.getElem?_eq_some_iff.1 hp).1
    refine ⟨by simp, fun i hi => by simp [List.getElem?_set, Ne.symm hi], fun j => ?_, ?_⟩
    · unfold opAt
      rw [List.getElem?_set]
      split
      · rename_i hj; subst hj; first | (rw [if_pos hlt, hp]; rfl) | (rw [hp]; rfl)
      · rfl
    · simp [nextAt, hlt]

theorem pushand_ok {a a' : List Node} {f l : Nat} (e : pushand a f l = .ok a') : a' = ⟨f, l⟩ :: a := by
  unfold pushand at e
  split at e
  · cases e; rfl
  · cases e

theorem popand_ok {a : List Node} {p : Node × List Node} (e : popand a = .ok p) : a = p.1 :: p.2 := by
  unfold popand at e
  cases a with
  | nil => cases e
  | cons n a => simp only [R.ok.injEq] at e; subst e; rfl

theorem get_app {h : List Inst} {x : Inst} {i : Nat} (hi : i < h.length) : (h ++ [x])[i]? = h[i]? := List.getElem?_append_left hi

theorem get_last {h : List Inst} {x : Inst} : (h ++ [x])[h.length]? = some x := by simp

theorem Rep.inv {h : List Inst} {b : Nat} {n : Node} {ns : List Node} {es : List (Re Op)} (hr : Rep h b (n :: ns) es) :
    ∃ a e es', es = e :: es' ∧ Frag h e a b n.first n.last ∧ Rep h a ns es' := by
  cases hr with
  | cons h1 h2 => exact ⟨_, _, _, rfl, h1, h2⟩

theorem opAt_of {h : List Inst} {i : Nat} {x : Inst} (e : h[i]? = some x) : opAt h i = some x.op := by unfold opAt; rw [e]; rfl
theorem opAt_congr {h h' : List Inst} {i : Nat} (e : h'[i]? = h[i]?) : opAt h' i = opAt h i := by unfold opAt; rw [e]
theorem nextAt_congr {h h' : List Inst} {i : Nat} (e : h'[i]? = h[i]?) : nextAt h' i = nextAt h i := by unfold nextAt; rw [e]

theorem reduce_sim {cap : Nat} {x x' : Heap} {t : Ator} {id : Nat} {es : List (Re Op)} (hr : Rep x.h x.h.length x.ands es)
    (h : reduce cap x t id = .ok x') : ∃ es', reduceA es t id = some es' ∧ Rep x'.h x'.h.length x'.ands es' := by
  obtain ⟨hp, ands⟩ := x
  simp only at hr
  cases t with
  | bot => cases h
  | lbra =>
    simp only [reduce] at h
    obtain ⟨⟨op1, a⟩, e1, h⟩ := bind_ok h
    obtain ⟨h1, e2, h⟩ := bind_ok h
    obtain ⟨h2, e3, h⟩ := bind_ok h
    obtain ⟨h3, e4, h⟩ := bind_ok h
    obtain ⟨a', e5, h⟩ := bind_ok h
    cases h
    have e1 := popand_ok e1
    simp only at e1 e3 e4
    subst e1
    have e2 := newInst_ok e2; subst e2
    obtain ⟨s1, s2, s3, s4⟩ := setNext_ok e3
    have e4 := newInst_ok e4; subst e4
    have e5 := pushand_ok e5; subst e5
    obtain ⟨m, e, es, rfl, hf, hr⟩ := hr.inv
    have hb := frag_bounds hf
    simp only [List.length_append, List.length_cons, List.length_nil] at s1 ⊢
    have g : ∀ i, i < hp.length → i ≠ op1.last → (h2 ++ [⟨.lbra id, some op1.first⟩])[i]? = hp[i]? := by
      intro i i2 i3
      rw [get_app (by omega), s2 i i3, get_app (by omega)]
    have go : ∀ i, i < hp.length → opAt (h2 ++ [⟨.lbra id, some op1.first⟩]) i = opAt hp i := by
      intro i i2
      rw [opAt_congr (get_app (by omega)), s3, opAt_congr (get_app (by omega))]
    refine ⟨_, rfl, .cons (a := m) ⟨hp.length, op1.first, op1.last, frag_keep hf (fun i i1 i2 i3 => g i i2 i3) (go _ (by omega)), by omega, rfl, rfl, ?_, ?_, ?_⟩ ?_⟩
    · rw [show hp.length + 1 = h2.length by omega, get_last]
    · rw [opAt_congr (get_app (by omega)), s3, opAt_of get_last]
    · rw [nextAt_congr (get_app (by omega)), s4]
    · exact hr.keep (fun i hi => g i (by omega) (by omega))
  | or =>
    simp only [reduce] at h
    obtain ⟨⟨op2, a⟩, e1, h⟩ := bind_ok h
    obtain ⟨⟨op1, a2⟩, e1', h⟩ := bind_ok h
    obtain ⟨h1, e2, h⟩ := bind_ok h
    obtain ⟨h2, e3, h⟩ := bind_ok h
    obtain ⟨h2', e3', h⟩ := bind_ok h
    obtain ⟨h3, e4, h⟩ := bind_ok h
    obtain ⟨a', e5, h⟩ := bind_ok h
    cases h
    have e1 := popand_ok e1
    have e1' := popand_ok e1'
    simp only at e1 e1' e3 e3' e4
    subst e1 e1'
    have e2 := newInst_ok e2; subst e2
    obtain ⟨s1, s2, s3, s4⟩ := setNext_ok e3
    obtain ⟨u1, u2, u3, u4⟩ := setNext_ok e3'
    have e4 := newInst_ok e4; subst e4
    have e5 := pushand_ok e5; subst e5
    obtain ⟨m, e, es, rfl, hf, hr⟩ := hr.inv
    obtain ⟨m', e', es, rfl, hf', hr⟩ := hr.inv
    have hb := frag_bounds hf
    have hb' := frag_bounds hf'
    simp only [List.length_append, List.length_cons, List.length_nil] at s1 ⊢
    have g : ∀ i, i < hp.length → i ≠ op1.last → i ≠ op2.last → (h2' ++ [⟨.or op1.first, some op2.first⟩])[i]? = hp[i]? := by
      intro i i2 i3 i4
      rw [get_app (by omega), u2 i i3, s2 i i4, get_app (by omega)]
    have go : ∀ i, i < hp.length → opAt (h2' ++ [⟨.or op1.first, some op2.first⟩]) i = opAt hp i := by
      intro i i2
      rw [opAt_congr (get_app (by omega)), u3, s3, opAt_congr (get_app (by omega))]
    refine ⟨_, rfl, .cons (a := m') ⟨m, hp.length, op1.first, op1.last, op2.first, op2.last, frag_keep hf' (fun i i1 i2 i3 => g i (by omega) i3 (by omega)) (go _ (by omega)),
      frag_keep hf (fun i i1 i2 i3 => g i i2 (by omega) i3) (go _ (by omega)), by omega, rfl, rfl, ?_, ?_, ?_, ?_⟩ ?_⟩
    · rw [show hp.length + 1 = h2'.length by omega, get_last]
    · rw [opAt_congr (get_app (by omega)), u3, s3, opAt_of get_last]
    · rw [nextAt_congr (get_app (by omega)), u4]
    · rw [nextAt_congr (get_app (by omega)), nextAt_congr (u2 _ (by omega)), s4]
    · exact hr.keep (fun i hi => g i (by omega) (by omega) (by omega))
  | cat =>
    simp only [reduce] at h
    obtain ⟨⟨op2, a⟩, e1, h⟩ := bind_ok h
    obtain ⟨⟨op1, a2⟩, e1', h⟩ := bind_ok h
    obtain ⟨h2, e3, h⟩ := bind_ok h
    obtain ⟨a', e5, h⟩ := bind_ok h
    cases h
    have e1 := popand_ok e1
    have e1' := popand_ok e1'
    simp only at e1 e1' e3
    subst e1 e1'
    obtain ⟨s1, s2, s3, s4⟩ := setNext_ok e3
    have e5 := pushand_ok e5; subst e5
    obtain ⟨m, e, es, rfl, hf, hr⟩ := hr.inv
    obtain ⟨m', e', es, rfl, hf', hr⟩ := hr.inv
    have hb := frag_bounds hf
    have hb' := frag_bounds hf'
    simp only
    rw [s1]
    refine ⟨_, rfl, .cons (a := m') ⟨m, op1.last, op2.first, frag_keep hf' (fun i i1 i2 i3 => s2 i i3) (s3 _),
      frag_keep hf (fun i i1 i2 i3 => s2 i (by omega)) (s3 _), s4⟩ ?_⟩
    exact hr.keep (fun i hi => s2 i (by omega))
  | star =>
    simp only [reduce] at h
    obtain ⟨⟨op2, a⟩, e1, h⟩ := bind_ok h
    obtain ⟨h1, e2, h⟩ := bind_ok h
    obtain ⟨h2, e3, h⟩ := bind_ok h
    obtain ⟨a', e5, h⟩ := bind_ok h
    cases h
    have e1 := popand_ok e1
    simp only at e1 e2 e3
    subst e1
    have e2 := newInst_ok e2; subst e2
    obtain ⟨s1, s2, s3, s4⟩ := setNext_ok e3
    have e5 := pushand_ok e5; subst e5
    obtain ⟨m, e, es, rfl, hf, hr⟩ := hr.inv
    have hb := frag_bounds hf
    simp only [List.length_append, List.length_cons, List.length_nil] at s1 ⊢
    refine ⟨_, rfl, .cons (a := m) ⟨hp.length, op2.first, op2.last, frag_keep hf (fun i i1 i2 i3 => ?_) ?_, by omega, rfl, rfl, ?_, s4⟩ ?_⟩
    · rw [s2 i i3, get_app i2]
    · rw [s3, opAt_congr (get_app (by omega))]
    · rw [s3, opAt_of get_last]
    · exact hr.keep (fun i hi => by rw [s2 i (by omega), get_app (by omega)])
  | plus =>
    simp only [reduce] at h
    obtain ⟨⟨op2, a⟩, e1, h⟩ := bind_ok h
    obtain ⟨h1, e2, h⟩ := bind_ok h
    obtain ⟨h2, e3, h⟩ := bind_ok h
    obtain ⟨a', e5, h⟩ := bind_ok h
    cases h
    have e1 := popand_ok e1
    simp only at e1 e2 e3
    subst e1
    have e2 := newInst_ok e2; subst e2
    obtain ⟨s1, s2, s3, s4⟩ := setNext_ok e3
    have e5 := pushand_ok e5; subst e5
    obtain ⟨m, e, es, rfl, hf, hr⟩ := hr.inv
    have hb := frag_bounds hf
    simp only [List.length_append, List.length_cons, List.length_nil] at s1 ⊢
    refine ⟨_, rfl, .cons (a := m) ⟨hp.length, op2.last, frag_keep hf (fun i i1 i2 i3 => ?_) ?_, by omega, rfl, ?_, s4⟩ ?_⟩
    · rw [s2 i i3, get_app i2]
    · rw [s3, opAt_congr (get_app (by omega))]
    · rw [s3, opAt_of get_last]
    · exact hr.keep (fun i hi => by rw [s2 i (by omega), get_app (by omega)])
  | quest =>
    simp only [reduce] at h
    obtain ⟨⟨op2, a⟩, e1, h⟩ := bind_ok h
    obtain ⟨h1, e2, h⟩ := bind_ok h
    obtain ⟨h1', e2', h⟩ := bind_ok h
    obtain ⟨h2, e3, h⟩ := bind_ok h
    obtain ⟨a', e5, h⟩ := bind_ok h
    cases h
    have e1 := popand_ok e1
    simp only at e1 e2 e3
    subst e1
    have e2 := newInst_ok e2; subst e2
    have e2' := newInst_ok e2'; subst e2'
    obtain ⟨s1, s2, s3, s4⟩ := setNext_ok e3
    have e5 := pushand_ok e5; subst e5
    obtain ⟨m, e, es, rfl, hf, hr⟩ := hr.inv
    have hb := frag_bounds hf
    simp only [List.length_append, List.length_cons, List.length_nil] at s1 ⊢
    have l1 : (hp ++ [⟨.or op2.first, some (hp.length + 1)⟩] : List Inst).length = hp.length + 1 := by simp
    have g : ∀ i, i < hp.length → i ≠ op2.last → h2[i]? = hp[i]? := by
      intro i i2 i3
      rw [s2 i i3, get_app (by omega), get_app i2]
    refine ⟨_, rfl, .cons (a := m) ⟨hp.length, op2.first, op2.last, frag_keep hf (fun i i1 i2 i3 => g i i2 i3) ?_, by omega, rfl, rfl, ?_, ?_, s4⟩ ?_⟩
    · rw [s3, opAt_congr (get_app (by omega)), opAt_congr (get_app (by omega))]
    · rw [s2 _ (by omega), get_app (by omega), get_last]
    · have : ∀ (l : List Inst) (y : Inst) (k : Nat), l.length = k → opAt (l ++ [y]) k = some y.op := by
        intro l y k hk; subst hk; exact opAt_of get_last
      rw [s3, this _ _ _ l1]
    · exact hr.keep (fun i hi => g i (by omega) (by omega))

/-- `evaluntil` on expressions. -/
def evalA (pri : Nat) : List (Ator × Nat) → List (Re Op) → Option (List (Ator × Nat) × List (Re Op))
  | [], _ => none
  | (t, id) :: ts, es =>
    if pri = 2 ∨ pri ≤ t.prec then (reduceA es t id).bind fun es => if t = .lbra then some (ts, es) else evalA pri ts es
    else some ((t, id) :: ts, es)

theorem eval_sim {cap pri : Nat} : ∀ {o : List (Ator × Nat)} {x : Heap} {o' : List (Ator × Nat)} {x' : Heap} {es : List (Re Op)}, Rep x.h x.h.length x.ands es →
    evaluntil cap pri o x = .ok (o', x') → ∃ es', evalA pri o es = some (o', es') ∧ Rep x'.h x'.h.length x'.ands es'
  | [], x, o', x', es, hr, h => by
    rw [evaluntil] at h
    split at h <;> cases h
  | (t, id) :: ts, x, o', x', es, hr, h => by
    rw [evaluntil] at h
    rw [evalA]
    split at h
    · rename_i hc
      rw [if_pos hc]
      obtain ⟨x1, e1, h⟩ := bind_ok h
      obtain ⟨es1, e2, hr1⟩ := reduce_sim hr e1
      rw [e2, Option.bind_some]
      split at h
      · rename_i hl
        rw [if_pos hl]
        cases h
        exact ⟨es1, rfl, hr1⟩
      · rename_i hl
        rw [if_neg hl]
        exact eval_sim hr1 h
    · rename_i hc
      rw [if_neg hc]
      cases h
      exact ⟨es, rfl, hr⟩

/-- The state of the parser on expressions. -/
structure PA where
  es : List (Re Op)
  ators : List (Ator × Nat)
  cursub : Nat
  lastand : Bool
  nbra : Nat

def operatorA (s : PA) (t : Ator) : Option PA :=
  (evalA t.prec s.ators s.es).map fun x => ⟨x.2, (t, s.cursub) :: x.1, s.cursub, t.like, s.nbra⟩

def catA (s : PA) : Option PA := if s.lastand then operatorA s .cat else some s

def tokenA (s : PA) : Tok Op → Option PA
  | .one op => (catA s).map fun s => { s with es := .one op :: s.es, lastand := true }
  | .lpar => (catA { s with cursub := s.cursub + 1, nbra := s.nbra + 1 }).map fun s => { s with ators := (.lbra, s.cursub) :: s.ators, lastand := false }
  | .rpar => if s.nbra = 0 then none else (evalA 2 s.ators s.es).map fun x => ⟨x.2, x.1, s.cursub, true, s.nbra - 1⟩
  | .bar => operatorA s .or
  | .star => operatorA s .star
  | .plus => operatorA s .plus
  | .opt => operatorA s .quest

def tokensA : List (Tok Op) → PA → Option PA
  | [], s => some s
  | t :: ts, s => (tokenA s t).bind (tokensA ts)

/-- The two parsers are in the same state. -/
structure Sim (s : PS) (p : PA) : Prop where
  rep : Rep s.x.h s.x.h.length s.x.ands p.es
  ators : p.ators = s.ators
  cursub : p.cursub = s.cursub
  lastand : p.lastand = s.lastand
  nbra : p.nbra = s.nbra

theorem operator_sim {cap : Nat} {s s' : PS} {p : PA} {t : Ator} (hs : Sim s p) (h : operator cap s t = .ok s') : ∃ p', operatorA p t = some p' ∧ Sim s' p' := by
  unfold operator at h
  obtain ⟨⟨o, x⟩, e1, h⟩ := bind_ok h
  obtain ⟨s1, e2, h⟩ := bind_ok h
  cases h
  obtain ⟨es', e3, hr⟩ := eval_sim hs.rep e1
  unfold pushator at e2
  split at e2
  · cases e2
    refine ⟨⟨es', (t, p.cursub) :: o, p.cursub, t.like, p.nbra⟩, by rw [operatorA, hs.ators, e3]; rfl, ⟨hr, ?_, hs.cursub, rfl, hs.nbra⟩⟩
    simp [hs.cursub]
  · cases e2

theorem cat_sim {cap : Nat} {s s' : PS} {p : PA} (hs : Sim s p) (h : (if s.lastand then operator cap s .cat else .ok s) = .ok s') : ∃ p', catA p = some p' ∧ Sim s' p' := by
  unfold catA
  rw [hs.lastand]
  split at h
  · rename_i hl; rw [if_pos hl]; exact operator_sim hs h
  · rename_i hl; rw [if_neg hl]; cases h; exact ⟨p, rfl, hs⟩

theorem operand_sim {cap : Nat} {s s' : PS} {p : PA} {op : Op} (hs : Sim s p) (h : operand cap s op = .ok s') : ∃ p', tokenA p (.one op) = some p' ∧ Sim s' p' := by
  unfold operand at h
  obtain ⟨s1, e1, h⟩ := bind_ok h
  obtain ⟨h1, e2, h⟩ := bind_ok h
  obtain ⟨a1, e3, h⟩ := bind_ok h
  cases h
  obtain ⟨p1, e4, hs1⟩ := cat_sim hs e1
  have e2 := newInst_ok e2; subst e2
  have e3 := pushand_ok e3; subst e3
  refine ⟨{ p1 with es := .one op :: p1.es, lastand := true }, by rw [tokenA, e4]; rfl, ⟨?_, hs1.ators, hs1.cursub, rfl, hs1.nbra⟩⟩
  simp only [List.length_append, List.length_cons, List.length_nil]
  refine .cons (a := s1.x.h.length) ⟨rfl, rfl, rfl, opAt_of get_last⟩ (hs1.rep.keep (fun i hi => get_app hi))

theorem token_sim {cap : Nat} {s s' : PS} {p : PA} {t : Tok Op} (hs : Sim s p) (h : token cap s t = .ok s') : ∃ p', tokenA p t = some p' ∧ Sim s' p' := by
  cases t with
  | one op => exact operand_sim hs h
  | lpar =>
    simp only [token, operatorL] at h
    split at h
    · cases h
    · obtain ⟨s1, e1, h⟩ := bind_ok h
      obtain ⟨s2, e2, h⟩ := bind_ok h
      cases h
      have hs' : Sim { s with cursub := s.cursub + 1, nbra := s.nbra + 1 } { p with cursub := p.cursub + 1, nbra := p.nbra + 1 } :=
        ⟨hs.rep, hs.ators, by simp [hs.cursub], hs.lastand, by simp [hs.nbra]⟩
      obtain ⟨p1, e3, hs1⟩ := cat_sim hs' e1
      unfold pushator at e2
      split at e2
      · cases e2
        exact ⟨{ p1 with ators := (.lbra, p1.cursub) :: p1.ators, lastand := false }, by rw [tokenA, e3]; rfl, ⟨hs1.rep, by simp [hs1.ators, hs1.cursub], hs1.cursub, rfl, hs1.nbra⟩⟩
      · cases e2
  | rpar =>
    simp only [token, operatorR] at h
    rw [tokenA, hs.nbra]
    split at h
    · cases h
    · rename_i hn
      rw [if_neg hn]
      obtain ⟨⟨o, x⟩, e1, h⟩ := bind_ok h
      cases h
      obtain ⟨es', e3, hr⟩ := eval_sim hs.rep e1
      exact ⟨⟨es', o, p.cursub, true, s.nbra - 1⟩, by rw [hs.ators, e3]; rfl, ⟨hr, rfl, hs.cursub, rfl, rfl⟩⟩
  | bar => exact operator_sim hs h
  | star => exact operator_sim hs h
  | plus => exact operator_sim hs h
  | opt => exact operator_sim hs h

theorem tokens_sim {cap : Nat} : ∀ {ts : List (Tok Op)} {s s' : PS} {p : PA}, Sim s p → tokens cap ts s = .ok s' → ∃ p', tokensA ts p = some p' ∧ Sim s' p'
  | [], s, s', p, hs, h => by
    cases h
    exact ⟨p, rfl, hs⟩
  | t :: ts, s, s', p, hs, h => by
    rw [tokens] at h
    obtain ⟨s1, e1, h⟩ := bind_ok h
    obtain ⟨p1, e2, hs1⟩ := token_sim hs e1
    obtain ⟨p', e3, hs'⟩ := tokens_sim hs1 h
    exact ⟨p', by rw [tokensA, e2]; exact e3, hs'⟩

end Verif.Regex
