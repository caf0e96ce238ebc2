import Verif.Regex.Frag
import Verif.Regex.FitsSpec
/- The operator precedence parser against the grammar. -/
namespace Verif.Regex
open Spec (Tok Re G Parse Groups Matches)

def ids : Re Op → List Nat
  | .one _ => []
  | .grp k e => k :: ids e
  | .cat a b => ids a ++ ids b
  | .alt a b => ids a ++ ids b
  | .star e => ids e
  | .plus e => ids e
  | .opt e => ids e

/-- No group inside itself. -/
def Wf : Re Op → Prop
  | .one _ => True
  | .grp k e => k ∉ ids e ∧ Wf e
  | .cat a b => Wf a ∧ Wf b
  | .alt a b => Wf a ∧ Wf b
  | .star e => Wf e
  | .plus e => Wf e
  | .opt e => Wf e

def All (p : Op → Prop) : Re Op → Prop
  | .one o => p o
  | .grp _ e => All p e
  | .cat a b => All p a ∧ All p b
  | .alt a b => All p a ∧ All p b
  | .star e => All p e
  | .plus e => All p e
  | .opt e => All p e

/-- Two expressions with the same groups, literals and meaning. -/
structure EqvW (e e' : Re Op) : Prop where
  ids : ids e = ids e'
  wf : Wf e ↔ Wf e'
  all : ∀ p, All p e ↔ All p e'
  head : e.head = e'.head
  parse : ∀ (R : Op → Nat → Nat → Prop) i g j g', Parse R e i g j g' ↔ Parse R e' i g j g'

/-- The same, and unless there are several postfix operators on the same operand, the same expression. -/
structure Eqv (e e' : Re Op) : Prop extends EqvW e e' where
  same : e.single = true ∨ e'.single = true → e = e'

theorem EqvW.symm {e e' : Re Op} (h : EqvW e e') : EqvW e' e := ⟨h.ids.symm, h.wf.symm, fun p => (h.all p).symm, h.head.symm, fun R i g j g' => (h.parse R i g j g').symm⟩
theorem EqvW.trans {e e' e'' : Re Op} (h : EqvW e e') (h' : EqvW e' e'') : EqvW e e'' :=
  ⟨h.ids.trans h'.ids, h.wf.trans h'.wf, fun p => (h.all p).trans (h'.all p), h.head.trans h'.head, fun R i g j g' => (h.parse R i g j g').trans (h'.parse R i g j g')⟩

theorem Eqv.refl (e : Re Op) : Eqv e e := ⟨⟨rfl, Iff.rfl, fun _ => Iff.rfl, rfl, fun _ _ _ _ _ => Iff.rfl⟩, fun _ => rfl⟩
theorem Eqv.symm {e e' : Re Op} (h : Eqv e e') : Eqv e' e := ⟨h.toEqvW.symm, fun x => (h.same x.symm).symm⟩
theorem Eqv.trans {e e' e'' : Re Op} (h : Eqv e e') (h' : Eqv e' e'') : Eqv e e'' :=
  ⟨h.toEqvW.trans h'.toEqvW, fun x => by
    rcases x with x | x
    · have h1 := h.same (.inl x)
      exact h1.trans (h'.same (.inl (h1 ▸ x)))
    · have h1 := h'.same (.inr x)
      exact (h.same (.inr (h1 ▸ x))).trans h1⟩

section
variable {α : Type} {R : α → Nat → Nat → Prop}

theorem star_mono' {e e' : Re α} (h : ∀ i g j g', Parse R e i g j g' → Parse R (.star e') i g j g') {x : Re α} {i : Nat} {g : Groups} {j : Nat} {g' : Groups}
    (hp : Parse R x i g j g') : x = .star e → Parse R (.star e') i g j g' := by
  have tr : ∀ {x : Re α} {i g j g'}, Parse R x i g j g' → x = .star e' → ∀ {l g''}, Parse R (.star e') j g' l g'' → Parse R (.star e') i g l g'' := by
    intro x i g j g' hp
    induction hp with
    | starNil => intro _ _ _ h2; exact h2
    | starCons h1 _ _ ih => intro he _ _ h2; cases he; exact .starCons h1 (ih rfl h2)
    | _ => intro he; cases he
  induction hp with
  | starNil => intro _; exact .starNil
  | starCons h1 _ _ ih => intro he; cases he; exact tr (h _ _ _ _ h1) rfl (ih rfl)
  | _ => intro he; cases he

theorem star_mono {e e' : Re α} (h : ∀ i g j g', Parse R e i g j g' → Parse R (.star e') i g j g') {i : Nat} {g : Groups} {j : Nat} {g' : Groups}
    (hp : Parse R (.star e) i g j g') : Parse R (.star e') i g j g' := star_mono' h hp rfl

theorem star_trans {e : Re α} {i j l : Nat} {g g' g'' : Groups} (h1 : Parse R (.star e) i g j g') (h2 : Parse R (.star e) j g' l g'') :
    Parse R (.star e) i g l g'' := by
  generalize he : Re.star e = x at h1
  induction h1 with
  | starNil => cases he; exact h2
  | starCons h1 _ _ ih => cases he; exact .starCons h1 (ih h2 rfl)
  | _ => cases he

theorem star_of {e : Re α} {i j : Nat} {g g' : Groups} (h : Parse R e i g j g') : Parse R (.star e) i g j g' := .starCons h .starNil

theorem plus_star {e : Re α} {i j : Nat} {g g' : Groups} (h : Parse R (.plus e) i g j g') : Parse R (.star e) i g j g' := by
  cases h with
  | plus h1 h2 => exact .starCons h1 h2

theorem opt_star {e : Re α} {i j : Nat} {g g' : Groups} (h : Parse R (.opt e) i g j g') : Parse R (.star e) i g j g' := by
  cases h with
  | optNil => exact .starNil
  | opt h => exact star_of h
end

/-- The postfix operators. -/
def ap : Ator → Re Op → Re Op
  | .star, e => .star e
  | .plus, e => .plus e
  | _, e => .opt e

theorem ap_congr {t : Ator} {e e' : Re Op} (h : Eqv e e') : Eqv (ap t e) (ap t e') := by
  have st : ∀ (R : Op → Nat → Nat → Prop) i g j g', Parse R (.star e) i g j g' ↔ Parse R (.star e') i g j g' := fun R i g j g' =>
    ⟨star_mono (fun _ _ _ _ h' => star_of ((h.parse R _ _ _ _).1 h')), star_mono (fun _ _ _ _ h' => star_of ((h.parse R _ _ _ _).2 h'))⟩
  have one : ∀ {f : Re Op → Re Op}, (∀ x, (f x).single = (!x.post && x.single)) → (f e).single = true ∨ (f e').single = true → f e = f e' := by
    intro f hf x
    rw [hf, hf, Bool.and_eq_true, Bool.and_eq_true] at x
    rw [h.same (x.imp (·.2) (·.2))]
  have op : Eqv (.opt e) (.opt e') := ⟨⟨h.ids, h.wf, h.all, rfl, fun R i g j g' => by
    constructor
    · intro hp
      cases hp with
      | optNil => exact .optNil
      | opt hp => exact .opt ((h.parse R _ _ _ _).1 hp)
    · intro hp
      cases hp with
      | optNil => exact .optNil
      | opt hp => exact .opt ((h.parse R _ _ _ _).2 hp)⟩, one fun _ => rfl⟩
  cases t with
  | star => exact ⟨⟨h.ids, h.wf, h.all, rfl, st⟩, one fun _ => rfl⟩
  | plus =>
    refine ⟨⟨h.ids, h.wf, h.all, h.head, fun R i g j g' => ?_⟩, one fun _ => rfl⟩
    constructor
    · intro hp
      cases hp with
      | plus h1 h2 => exact .plus ((h.parse R _ _ _ _).1 h1) ((st R _ _ _ _).1 h2)
    · intro hp
      cases hp with
      | plus h1 h2 => exact .plus ((h.parse R _ _ _ _).2 h1) ((st R _ _ _ _).2 h2)
  | _ => exact op

theorem cat_congr {a a' b b' : Re Op} (h : Eqv a a') (h' : Eqv b b') : Eqv (.cat a b) (.cat a' b') := by
  refine ⟨⟨by simp only [ids, h.ids, h'.ids], by simp only [Wf, h.wf, h'.wf], fun p => by simp only [All, h.all p, h'.all p], h.head, fun R i g j g' => ?_⟩, fun x => by
    simp only [Re.single, Bool.and_eq_true] at x
    rw [h.same (x.imp (·.1) (·.1)), h'.same (x.imp (·.2) (·.2))]⟩
  constructor
  · intro hp
    cases hp with
    | cat h1 h2 => exact .cat ((h.parse R _ _ _ _).1 h1) ((h'.parse R _ _ _ _).1 h2)
  · intro hp
    cases hp with
    | cat h1 h2 => exact .cat ((h.parse R _ _ _ _).2 h1) ((h'.parse R _ _ _ _).2 h2)

theorem alt_congr {a a' b b' : Re Op} (h : Eqv a a') (h' : Eqv b b') : Eqv (.alt a b) (.alt a' b') := by
  refine ⟨⟨by simp only [ids, h.ids, h'.ids], by simp only [Wf, h.wf, h'.wf], fun p => by simp only [All, h.all p, h'.all p], rfl, fun R i g j g' => ?_⟩, fun x => by
    simp only [Re.single, Bool.and_eq_true] at x
    rw [h.same (x.imp (·.1) (·.1)), h'.same (x.imp (·.2) (·.2))]⟩
  constructor
  · intro hp
    cases hp with
    | altL h1 => exact .altL ((h.parse R _ _ _ _).1 h1)
    | altR h1 => exact .altR ((h'.parse R _ _ _ _).1 h1)
  · intro hp
    cases hp with
    | altL h1 => exact .altL ((h.parse R _ _ _ _).2 h1)
    | altR h1 => exact .altR ((h'.parse R _ _ _ _).2 h1)

theorem grp_congr {k : Nat} {e e' : Re Op} (h : Eqv e e') : Eqv (.grp k e) (.grp k e') := by
  refine ⟨⟨by simp only [ids, h.ids], by simp only [Wf, h.wf, h.ids], h.all, rfl, fun R i g j g' => ?_⟩, fun x => by
    simp only [Re.single] at x
    rw [h.same x]⟩
  constructor
  · intro hp
    cases hp with
    | grp h1 => exact .grp ((h.parse R _ _ _ _).1 h1)
  · intro hp
    cases hp with
    | grp h1 => exact .grp ((h.parse R _ _ _ _).2 h1)

/-- Two different postfix operators are a star, in either order. -/
theorem ap_ap {o t : Ator} (ho : o.like = true) (ht : t.like = true) (hne : o ≠ t) (e : Re Op) : EqvW (ap o (ap t e)) (.star e) := by
  have mk : ∀ x : Re Op, ids x = ids e → (Wf x ↔ Wf e) → (∀ p, All p x ↔ All p e) → x.head = none →
      (∀ (R : Op → Nat → Nat → Prop) i g j g', Parse R x i g j g' ↔ Parse R (.star e) i g j g') → EqvW x (.star e) := fun x a b c d e => ⟨a, b, c, d, e⟩
  cases o <;> cases ho <;> cases t <;> cases ht <;> first | (exact absurd rfl hne) | skip
  all_goals refine mk _ rfl Iff.rfl (fun _ => Iff.rfl) rfl (fun R i g j g' => ⟨fun hp => ?_, fun hp => ?_⟩)
  · exact star_mono (fun _ _ _ _ h => plus_star h) hp
  · exact star_mono (fun _ _ _ _ h => star_of (.plus h .starNil)) hp
  · exact star_mono (fun _ _ _ _ h => opt_star h) hp
  · exact star_mono (fun _ _ _ _ h => star_of (.opt h)) hp
  · cases hp with
    | plus h1 h2 => exact star_trans h1 (star_mono (fun _ _ _ _ h => h) h2)
  · exact .plus hp .starNil
  · cases hp with
    | plus h1 h2 => exact star_trans (opt_star h1) (star_mono (fun _ _ _ _ h => opt_star h) h2)
  · exact .plus .optNil (star_mono (fun _ _ _ _ h => star_of (.opt h)) hp)
  · cases hp with
    | optNil => exact .starNil
    | opt h => exact h
  · exact .opt hp
  · cases hp with
    | optNil => exact .starNil
    | opt h => exact plus_star h
  · cases hp with
    | starNil => exact .optNil
    | starCons h1 h2 => exact .opt (.plus h1 h2)

/-- Operators, the one applied first in front. -/
def aps : List Ator → Re Op → Re Op
  | [], e => e
  | o :: os, e => aps os (ap o e)

theorem aps_congr : ∀ {os : List Ator} {e e' : Re Op}, Eqv e e' → Eqv (aps os e) (aps os e')
  | [], _, _, h => h
  | _ :: os, _, _, h => aps_congr (os := os) (ap_congr h)

theorem aps_app : ∀ (a b : List Ator) (e : Re Op), aps (a ++ b) e = aps b (aps a e)
  | [], _, _ => rfl
  | _ :: a, b, e => aps_app a b (ap _ e)

theorem ap_single (o t : Ator) (e : Re Op) : (ap o (ap t e)).single = false := by
  cases o <;> cases t <;> rfl

theorem aps_comm {t : Ator} (ht : t.like = true) : ∀ {lo : List Ator} (e : Re Op), (∀ o ∈ lo, o.like = true ∧ o ≠ t) → Eqv (aps lo (ap t e)) (ap t (aps lo e))
  | [], e, _ => Eqv.refl _
  | o :: lo, e, h => by
    obtain ⟨h1, h2⟩ := h o (by simp)
    have : Eqv (ap o (ap t e)) (ap t (ap o e)) :=
      ⟨(ap_ap h1 ht h2 e).trans (ap_ap ht h1 (Ne.symm h2) e).symm, fun x => by rw [ap_single, ap_single] at x; simp at x⟩
    exact (aps_congr this).trans (aps_comm ht (ap o e) (fun o ho => h o (by simp [ho])))

/-! ### the states of the parser -/

/-- Operators that bind less and less. -/
def Desc : List Ator → Prop
  | [] => True
  | o :: os => o.like = true ∧ (∀ x ∈ os, x.prec < o.prec) ∧ Desc os

theorem Desc.mem : ∀ {os : List Ator}, Desc os → ∀ o ∈ os, o.like = true
  | o :: os, h, x, hx => by
    rcases List.mem_cons.1 hx with rfl | hx
    · exact h.1
    · exact h.2.2.mem x hx

/-- Operators on the stack, for some subexpressions. -/
def Ops (os : List Ator) (l : List (Ator × Nat)) : Prop := l.map (·.1) = os

mutual
/-- After the symbols `ts` with `n` left parentheses, an expression begins. -/
inductive Beg : List (Tok Op) → Nat → List (Re Op) → List (Ator × Nat) → Nat → Prop
  | top : Beg [] 0 [] [(.bot, 0)] 0
  | lpar {ts n es l nb} : P1 ts n es l nb → Beg (ts ++ [.lpar]) (n + 1) es ((.lbra, n + 1) :: l) (nb + 1)
/-- A sequence begins. -/
inductive P0 : List (Tok Op) → Nat → List (Re Op) → List (Ator × Nat) → Nat → Prop
  | beg {ts n es l nb} : Beg ts n es l nb → P0 ts n es l nb
  | alt {ts n es l nb ta A A' n' k} : Beg ts n es l nb → G 0 n ta A' n' → Eqv A A' → P0 (ts ++ (ta ++ [.bar])) n' (A :: es) ((.or, k) :: l) nb
/-- An item begins. -/
inductive P1 : List (Tok Op) → Nat → List (Re Op) → List (Ator × Nat) → Nat → Prop
  | p0 {ts n es l nb} : P0 ts n es l nb → P1 ts n es l nb
  | cat {ts n es l nb ta A A' n' k} : P0 ts n es l nb → G 1 n ta A' n' → Eqv A A' → P1 (ts ++ ta) n' (A :: es) ((.cat, k) :: l) nb
end

/-- Behind an item. -/
inductive P2 : List (Tok Op) → Nat → List (Re Op) → List (Ator × Nat) → Nat → Prop
  | mk {ts n es l nb ti x os lo I n'} : P1 ts n es l nb → G 2 n ti I n' → Desc os → Ops os lo → Eqv (aps os x) I → P2 (ts ++ ti) n' (x :: es) (lo ++ l) nb

theorem like_prec {t : Ator} (h : t.like = true) : 6 ≤ t.prec ∧ t.prec ≤ 8 ∧ t ≠ .lbra := by
  cases t <;> simp_all [Ator.like, Ator.prec]

theorem reduce_like {t : Ator} (h : t.like = true) (k : Nat) (x : Re Op) (es : List (Re Op)) : reduceA (x :: es) t k = some (ap t x :: es) := by
  cases t <;> first | rfl | (cases h)

theorem evalA_pop {pri : Nat} {t : Ator} {k : Nat} {l : List (Ator × Nat)} {x : Re Op} {es : List (Re Op)} (ht : t.like = true) (hp : pri = 2 ∨ pri ≤ t.prec) :
    evalA pri ((t, k) :: l) (x :: es) = evalA pri l (ap t x :: es) := by
  rw [evalA, if_pos hp, reduce_like ht, Option.bind_some, if_neg (like_prec ht).2.2]

theorem evalA_stop {pri : Nat} {t : Ator} {k : Nat} {l : List (Ator × Nat)} {es : List (Re Op)} (h2 : pri ≠ 2) (hp : t.prec < pri) :
    evalA pri ((t, k) :: l) es = some ((t, k) :: l, es) := by
  rw [evalA, if_neg (by omega)]

theorem eval_all {pri : Nat} (hpri : pri ≤ 5) : ∀ {os : List Ator} {lo l : List (Ator × Nat)} {x : Re Op} {es : List (Re Op)}, Desc os → Ops os lo →
    evalA pri (lo ++ l) (x :: es) = evalA pri l (aps os x :: es)
  | [], lo, l, x, es, hd, ho => by
    cases lo with
    | nil => rfl
    | cons _ _ => cases ho
  | o :: os, lo, l, x, es, hd, ho => by
    cases lo with
    | nil => cases ho
    | cons p lo =>
      obtain ⟨t, k⟩ := p
      simp only [Ops, List.map_cons, List.cons.injEq] at ho
      obtain ⟨rfl, ho⟩ := ho
      have := like_prec hd.1
      rw [List.cons_append, evalA_pop hd.1 (.inr (by omega)), eval_all hpri hd.2.2 ho]
      rfl

theorem eval_post {pri : Nat} (hpri : 6 ≤ pri) {a : Ator} {k : Nat} {l : List (Ator × Nat)} (ha : a.prec ≤ 5) :
    ∀ {os : List Ator} {lo : List (Ator × Nat)} {x : Re Op} {es : List (Re Op)}, Desc os → Ops os lo →
    ∃ hi os' lo', os = hi ++ os' ∧ Ops os' lo' ∧ Desc os' ∧ (∀ t ∈ os', t.prec < pri) ∧
      evalA pri (lo ++ (a, k) :: l) (x :: es) = some (lo' ++ (a, k) :: l, aps hi x :: es)
  | [], lo, x, es, hd, ho => by
    cases lo with
    | nil => exact ⟨[], [], [], rfl, rfl, trivial, by simp, evalA_stop (by omega) (by omega)⟩
    | cons _ _ => cases ho
  | o :: os, lo, x, es, hd, ho => by
    cases lo with
    | nil => cases ho
    | cons p lo =>
      obtain ⟨t, k'⟩ := p
      have ho' := ho
      simp only [Ops, List.map_cons, List.cons.injEq] at ho
      obtain ⟨rfl, ho⟩ := ho
      by_cases hc : pri ≤ t.prec
      · obtain ⟨hi, os', lo', rfl, h2, h3, h4, h5⟩ := eval_post hpri (l := l) (k := k) ha (x := ap t x) (es := es) hd.2.2 ho
        exact ⟨t :: hi, os', lo', rfl, h2, h3, h4, by rw [List.cons_append, evalA_pop hd.1 (.inr hc), h5]; rfl⟩
      · refine ⟨[], t :: os, (t, k') :: lo, rfl, ho', hd, ?_, evalA_stop (by omega) (by omega)⟩
        intro y hy
        rcases List.mem_cons.1 hy with rfl | hy
        · omega
        · have := hd.2.1 y hy; omega

theorem beg_top {ts : List (Tok Op)} {n : Nat} {es : List (Re Op)} {l : List (Ator × Nat)} {nb : Nat} (h : Beg ts n es l nb) : ∃ a k l', l = (a, k) :: l' ∧ a.prec ≤ 3 := by
  cases h with
  | top => exact ⟨_, _, _, rfl, by decide⟩
  | lpar => exact ⟨_, _, _, rfl, by decide⟩

theorem p0_top {ts : List (Tok Op)} {n : Nat} {es : List (Re Op)} {l : List (Ator × Nat)} {nb : Nat} (h : P0 ts n es l nb) : ∃ a k l', l = (a, k) :: l' ∧ a.prec ≤ 4 := by
  cases h with
  | beg h => obtain ⟨a, k, l', h1, h2⟩ := beg_top h; exact ⟨a, k, l', h1, by omega⟩
  | alt => exact ⟨_, _, _, rfl, by decide⟩

theorem p1_top {ts : List (Tok Op)} {n : Nat} {es : List (Re Op)} {l : List (Ator × Nat)} {nb : Nat} (h : P1 ts n es l nb) : ∃ a k l', l = (a, k) :: l' ∧ a.prec ≤ 5 := by
  cases h with
  | p0 h => obtain ⟨a, k, l', h1, h2⟩ := p0_top h; exact ⟨a, k, l', h1, by omega⟩
  | cat => exact ⟨_, _, _, rfl, by decide⟩

/-- The item is appended to the sequence. -/
theorem p2_cat {pri : Nat} (hpri : pri ≤ 5) {ts : List (Tok Op)} {n : Nat} {es : List (Re Op)} {l : List (Ator × Nat)} {nb : Nat} (h : P2 ts n es l nb) :
    ∃ ts0 n0 es0 l0 ta A A', P0 ts0 n0 es0 l0 nb ∧ G 1 n0 ta A' n ∧ Eqv A A' ∧ ts = ts0 ++ ta ∧ evalA pri l es = evalA pri l0 (A :: es0) := by
  cases h with
  | @mk ts n es l nb ti x os lo I n' h1 hg hd ho he =>
    rw [eval_all hpri hd ho]
    cases h1 with
    | p0 h0 => exact ⟨ts, n, es, l, ti, _, I, h0, .item hg, he, rfl, rfl⟩
    | @cat ts0 n0 es0 l0 _ ta A A' _ k h0 hga hea =>
      refine ⟨ts0, n0, es0, l0, ta ++ ti, .cat A (aps os x), .cat A' I, h0, .cat hga hg, cat_congr hea he, by simp, ?_⟩
      rw [evalA, if_pos (.inr hpri)]
      rfl

/-- The sequence is the last alternative. -/
theorem p2_or {pri : Nat} (hpri : pri ≤ 4) {ts : List (Tok Op)} {n : Nat} {es : List (Re Op)} {l : List (Ator × Nat)} {nb : Nat} (h : P2 ts n es l nb) :
    ∃ ts0 n0 es0 l0 ta A A', Beg ts0 n0 es0 l0 nb ∧ G 0 n0 ta A' n ∧ Eqv A A' ∧ ts = ts0 ++ ta ∧ evalA pri l es = evalA pri l0 (A :: es0) := by
  obtain ⟨ts0, n0, es0, l0, ta, A, A', h0, hg, he, rfl, h5⟩ := p2_cat (pri := pri) (by omega) h
  rw [h5]
  cases h0 with
  | beg h0 => exact ⟨ts0, n0, es0, l0, ta, A, A', h0, .seq hg, he, rfl, rfl⟩
  | @alt ts0 n0 es0 l0 _ tb B B' _ k h0 hgb heb =>
    refine ⟨ts0, n0, es0, l0, tb ++ .bar :: ta, .alt B A, .alt B' A', h0, .alt hgb hg, alt_congr heb he, by simp, ?_⟩
    rw [evalA, if_pos (.inr hpri)]
    rfl

/-- The state of the parser after the symbols `ts`, all of them well placed. -/
def St (ts : List (Tok Op)) (p : PA) : Prop :=
  (p.lastand = false ∧ P0 ts p.cursub p.es p.ators p.nbra) ∨ (p.lastand = true ∧ P2 ts p.cursub p.es p.ators p.nbra)

/-- Well placed symbols. -/
def placed (p : PA) : Tok Op → Bool
  | .one _ => true
  | .lpar => true
  | .rpar => p.lastand && decide (p.nbra ≠ 0)
  | _ => p.lastand

/-- Before an item the pending sequence is put on the stack. -/
theorem st_cat {ts : List (Tok Op)} {p : PA} (h : St ts p) : ∃ p', catA p = some p' ∧ P1 ts p'.cursub p'.es p'.ators p'.nbra ∧ p'.cursub = p.cursub ∧ p'.nbra = p.nbra := by
  rcases h with ⟨h1, h2⟩ | ⟨h1, h2⟩
  · exact ⟨p, by rw [catA, if_neg (by simp [h1])], .p0 h2, rfl, rfl⟩
  · obtain ⟨ts0, n0, es0, l0, ta, A, A', h0, hg, he, rfl, h5⟩ := p2_cat (pri := 5) (by omega) h2
    obtain ⟨a, k, l', rfl, h6⟩ := p0_top h0
    rw [catA, if_pos h1, operatorA, show Ator.cat.prec = 5 from rfl, h5, evalA_stop (by omega) (by omega)]
    exact ⟨_, rfl, .cat h0 hg he, rfl, rfl⟩

/-- A change of the counters before the pending sequence is put on the stack. -/
theorem catA_lpar (p : PA) (a b : Nat) : catA { p with cursub := a, nbra := b } = (catA p).map fun q => { q with cursub := a, nbra := b, ators := if p.lastand then (.cat, a) :: q.ators.tail else q.ators } := by
  unfold catA operatorA
  obtain ⟨pes, pators, pc, pl, pn⟩ := p
  cases pl with
  | false => rfl
  | true =>
    simp only [if_true]
    cases evalA Ator.cat.prec pators pes with
    | none => rfl
    | some x => rfl

theorem st_token {ts : List (Tok Op)} {p : PA} (h : St ts p) {t : Tok Op} (ht : placed p t = true) : ∃ p', tokenA p t = some p' ∧ St (ts ++ [t]) p' := by
  have post : ∀ {a : Ator} {tk : Tok Op} {I : Re Op → Re Op}, a.like = true → p.lastand = true → (∀ {n tt e n'}, G 2 n tt e n' → G 2 n (tt ++ [tk]) (ap a e) n') →
      ∃ p', operatorA p a = some p' ∧ St (ts ++ [tk]) p' := by
    intro a tk I ha hl hg
    rcases h with ⟨h1, -⟩ | ⟨h1, h2⟩
    · rw [hl] at h1; cases h1
    · obtain ⟨pes, pators, pc, pl, pn⟩ := p
      simp only at h2
      cases h2 with
      | @mk ts n es l nb ti x os lo J n' hp1 hgi hd ho he =>
        obtain ⟨a0, k0, l', rfl, h6⟩ := p1_top hp1
        obtain ⟨hi, os', lo', rfl, q2, q3, q4, q5⟩ := eval_post (pri := a.prec) (like_prec ha).1 (k := k0) (l := l') h6 (x := x) (es := es) hd ho
        simp only [operatorA]
        rw [q5]
        refine ⟨_, rfl, .inr ⟨ha, ?_⟩⟩
        have hd' : Desc (a :: os') := ⟨ha, q4, q3⟩
        have ho' : Ops (a :: os') ((a, pc) :: lo') := by simp only [Ops, List.map_cons]; rw [q2]
        have he' : Eqv (aps (a :: os') (aps hi x)) (ap a J) := by
          refine (aps_comm ha (aps hi x) (fun o ho => ⟨q3.mem o ho, fun e => ?_⟩)).trans (ap_congr ?_)
          · have := q4 o ho; rw [e] at this; omega
          · rw [← aps_app]; exact he
        have := P2.mk hp1 (hg hgi) hd' ho' he'
        rw [← List.append_assoc] at this
        exact this
  cases t with
  | one o =>
    obtain ⟨p', e1, h1, -, -⟩ := st_cat h
    rw [tokenA, e1]
    exact ⟨_, rfl, .inr ⟨rfl, P2.mk (lo := []) (os := []) h1 .one trivial rfl (Eqv.refl _)⟩⟩
  | lpar =>
    obtain ⟨p', e1, h1, h2, h3⟩ := st_cat h
    rw [tokenA, catA_lpar, e1]
    refine ⟨_, rfl, .inl ⟨rfl, .beg ?_⟩⟩
    simp only
    rw [← h2, ← h3]
    refine .lpar ?_
    cases hl : p.lastand with
    | false => simpa [hl] using h1
    | true =>
      simp only [if_true]
      unfold catA at e1
      rw [if_pos hl] at e1
      unfold operatorA at e1
      obtain ⟨⟨xl, xe⟩, -, rfl⟩ := Option.map_eq_some_iff.1 e1
      simp only [List.tail_cons] at h1 ⊢
      cases h1 with
      | p0 h0 => obtain ⟨a, k, l', e, hlt⟩ := p0_top h0; cases e; exact absurd hlt (by decide)
      | cat h0 hg he => exact .cat h0 hg he
  | rpar =>
    simp only [placed, Bool.and_eq_true, decide_eq_true_eq] at ht
    obtain ⟨hl, hn⟩ := ht
    rw [tokenA, if_neg hn]
    rcases h with ⟨h1, -⟩ | ⟨h1, h2⟩
    · rw [hl] at h1; cases h1
    · obtain ⟨ts0, n0, es0, l0, ta, A, A', h0, hg, he, rfl, h5⟩ := p2_or (pri := 2) (by omega) h2
      rw [h5]
      obtain ⟨pes, pators, pc, pl, pn⟩ := p
      simp only at h0 hn hg ⊢
      cases h0 with
      | top => exact absurd rfl hn
      | @lpar ts1 n1 _ l1 nb1 hp1 =>
        rw [evalA, if_pos (.inl rfl)]
        refine ⟨_, rfl, .inr ⟨rfl, ?_⟩⟩
        have := P2.mk (lo := []) (os := []) (x := .grp (n1 + 1) A) hp1 (.grp hg) trivial rfl (grp_congr he)
        simpa using this
  | bar =>
    rcases h with ⟨h1, -⟩ | ⟨h1, h2⟩
    · simp [placed, h1] at ht
    · obtain ⟨ts0, n0, es0, l0, ta, A, A', h0, hg, he, rfl, h5⟩ := p2_or (pri := 4) (by omega) h2
      obtain ⟨a, k, l', rfl, h6⟩ := beg_top h0
      rw [tokenA, operatorA, show Ator.or.prec = 4 from rfl, h5, evalA_stop (by omega) (by omega)]
      refine ⟨_, rfl, .inl ⟨rfl, ?_⟩⟩
      rw [List.append_assoc]
      exact .alt h0 hg he
  | star => exact post (I := id) rfl ht .star
  | plus => exact post (I := id) rfl ht .plus
  | opt => exact post (I := id) rfl ht .opt

/-! ### misplaced symbols -/

def bin : Ator → Nat
  | .or => 1 | .cat => 1 | _ => 0

def nbin (l : List (Ator × Nat)) : Nat := (l.map fun p => bin p.1).sum

theorem reduceA_len {es es' : List (Re Op)} {t : Ator} {k : Nat} (h : reduceA es t k = some es') : es'.length + bin t = es.length ∧ es' ≠ [] := by
  unfold reduceA at h
  split at h <;> first | (cases h; simp [bin]) | (cases h)

theorem evalA_len {pri : Nat} : ∀ {l l' : List (Ator × Nat)} {es es' : List (Re Op)}, evalA pri l es = some (l', es') →
    es'.length + nbin l = es.length + nbin l' ∧ (es ≠ [] → es' ≠ [])
  | [], _, _, _, h => by cases h
  | (t, k) :: l, l', es, es', h => by
    rw [evalA] at h
    split at h
    · obtain ⟨es1, e1, h⟩ := Option.bind_eq_some_iff.1 h
      obtain ⟨h1, h2⟩ := reduceA_len e1
      simp only [nbin, List.map_cons, List.sum_cons] at *
      split at h
      · cases h
        exact ⟨by omega, fun _ => h2⟩
      · obtain ⟨h3, h4⟩ := evalA_len h
        simp only [nbin] at h3
        exact ⟨by omega, fun _ => h4 h2⟩
    · cases h
      exact ⟨rfl, fun h => h⟩

/-- Operands are missing. -/
def Def (p : PA) : Prop := p.es.length < nbin p.ators + p.lastand.toNat

theorem operatorA_len {p p' : PA} {t : Ator} (h : operatorA p t = some p') :
    p'.es.length + nbin p.ators + bin t = p.es.length + nbin p'.ators ∧ p'.lastand = t.like := by
  unfold operatorA at h
  obtain ⟨x, e1, rfl⟩ := Option.map_eq_some_iff.1 h
  have := (evalA_len e1).1
  simp only [nbin, List.map_cons, List.sum_cons] at *
  exact ⟨by omega, trivial⟩

theorem catA_len {p p' : PA} (h : catA p = some p') :
    p'.es.length + nbin p.ators + p.lastand.toNat = p.es.length + nbin p'.ators ∧ (p.lastand = false → p' = p) := by
  unfold catA at h
  split at h
  · rename_i hl
    have := (operatorA_len h).1
    simp only [bin] at this
    simp only [hl, Bool.toNat_true]
    exact ⟨this, fun h => by cases h⟩
  · rename_i hl
    cases h
    have : p.lastand = false := by simpa using hl
    simp [this]

theorem token_len {p p' : PA} {t : Tok Op} (h : tokenA p t = some p') :
    (placed p t = true → p'.es.length + nbin p.ators + p.lastand.toNat = p.es.length + nbin p'.ators + p'.lastand.toNat) ∧
    (placed p t = false → p'.es.length + nbin p.ators + p.lastand.toNat < p.es.length + nbin p'.ators + p'.lastand.toNat) := by
  have post : ∀ {a : Ator}, a ≠ .lbra → (bin a = 0 ∧ a.like = true ∨ bin a = 1 ∧ a.like = false) → operatorA p a = some p' →
      (p.lastand = true → p'.es.length + nbin p.ators + p.lastand.toNat = p.es.length + nbin p'.ators + p'.lastand.toNat) ∧
      (p.lastand = false → p'.es.length + nbin p.ators + p.lastand.toNat < p.es.length + nbin p'.ators + p'.lastand.toNat) := by
    intro a _ hb h
    obtain ⟨h1, h2⟩ := operatorA_len h
    constructor
    · intro hl
      rw [h2, hl]
      rcases hb with ⟨b1, b2⟩ | ⟨b1, b2⟩ <;> rw [b2] <;> simp <;> omega
    · intro hl
      rw [h2, hl]
      rcases hb with ⟨b1, b2⟩ | ⟨b1, b2⟩ <;> rw [b2] <;> simp <;> omega
  cases t with
  | one o =>
    rw [tokenA] at h
    obtain ⟨q, e1, rfl⟩ := Option.map_eq_some_iff.1 h
    have := (catA_len e1).1
    simp [placed]
    omega
  | lpar =>
    rw [tokenA] at h
    obtain ⟨q, e1, rfl⟩ := Option.map_eq_some_iff.1 h
    have := (catA_len e1).1
    simp only [placed, true_implies, nbin, List.map_cons, List.sum_cons, bin, Bool.toNat_false] at this ⊢
    exact ⟨by omega, fun h => by cases h⟩
  | rpar =>
    rw [tokenA] at h
    split at h
    · cases h
    · rename_i hn
      obtain ⟨q, e1, rfl⟩ := Option.map_eq_some_iff.1 h
      have := (evalA_len e1).1
      cases hl : p.lastand <;> simp [placed, hl, hn] <;> omega
  | bar => exact post (by decide) (.inr ⟨rfl, rfl⟩) h
  | star => exact post (by decide) (.inl ⟨rfl, rfl⟩) h
  | plus => exact post (by decide) (.inl ⟨rfl, rfl⟩) h
  | opt => exact post (by decide) (.inl ⟨rfl, rfl⟩) h

theorem def_token {p p' : PA} {t : Tok Op} (hd : Def p) (h : tokenA p t = some p') : Def p' := by
  obtain ⟨h1, h2⟩ := token_len h
  unfold Def at *
  cases hp : placed p t with
  | true => have := h1 hp; omega
  | false => have := h2 hp; omega

theorem def_tokens : ∀ {ts : List (Tok Op)} {p p' : PA}, Def p → tokensA ts p = some p' → Def p'
  | [], p, p', hd, h => by cases h; exact hd
  | t :: ts, p, p', hd, h => by
    rw [tokensA] at h
    obtain ⟨q, e1, h⟩ := Option.bind_eq_some_iff.1 h
    exact def_tokens (def_token hd e1) h

def pa0 : PA := ⟨[], [(.bot, 0)], 0, false, 0⟩

def Bal (p : PA) : Prop := p.es.length = nbin p.ators + p.lastand.toNat

theorem tokens_st : ∀ {us ts : List (Tok Op)} {p p' : PA}, St us p → Bal p → tokensA ts p = some p' → (St (us ++ ts) p' ∧ Bal p') ∨ Def p'
  | us, [], p, p', hs, hb, h => by cases h; rw [List.append_nil]; exact .inl ⟨hs, hb⟩
  | us, t :: ts, p, p', hs, hb, h => by
    rw [tokensA] at h
    obtain ⟨q, e1, h⟩ := Option.bind_eq_some_iff.1 h
    obtain ⟨h1, h2⟩ := token_len e1
    unfold Bal at hb
    cases hp : placed p t with
    | true =>
      obtain ⟨q', e2, hs'⟩ := st_token hs hp
      rw [e1] at e2
      cases e2
      have := tokens_st hs' (by unfold Bal; have := h1 hp; omega) h
      rwa [List.append_assoc] at this
    | false => exact .inr (def_tokens (by unfold Def; have := h2 hp; omega) h)

end Verif.Regex
