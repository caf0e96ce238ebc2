import Verif.Order
import Verif.Smap.Spec
/-
Which comparison functions a container ends up with, given the ones the user defined.
Modelled: include/stc/priv/template.h:153-172 (the capability flags and the binding to class members)
and 187-201 (the defaults), include/stc/common.h:132-134 (the default functions on built-in types).

A macro such as `i_less(x, y)` is an expression of type int, so it is modelled as a function to `Int`
that is true when it is not zero.  Textual substitution is not modelled: every default is a function.
-/
namespace Verif.Template

/-- A comparison expression of C type int. include/stc/priv/template.h:188-201. -/
abbrev Cmp2 (α : Type) := α → α → Int

/-- The C truth value as an int. include/stc/priv/template.h:189, 194. -/
def ofBool (b : Bool) : Int := if b then 1 else 0

/-- `==` and `<` of the C element type, for `*x == *y` and `*x < *y`.
include/stc/priv/template.h:191, 196; include/stc/common.h:132-134. -/
structure Prim (α : Type) where
  eq : α → α → Bool
  lt : α → α → Bool

/-- The functions `T_cmp` and `T_eq` of a raw class `T`. include/stc/priv/template.h:163, 166. -/
structure Members (α : Type) where
  cmp : Cmp2 α
  eq : Cmp2 α

/-- What is defined before `#include` of a container header.
include/stc/priv/template.h:153-158, 161-167 (the names tested by `defined`). -/
structure Defs (α : Type) where
  eq : Option (Cmp2 α) := none
  less : Option (Cmp2 α) := none
  cmp : Option (Cmp2 α) := none
  /-- `i_rawclass` -/
  raw : Option (Members α) := none
  useCmp : Bool := false
  useEq : Bool := false
  /-- `i_hash` -/
  hash : Bool := false
  /-- `_i_sorted` -/
  sorted : Bool := false
  /-- `_i_is_pqueue` -/
  pqueue : Bool := false
  /-- `_i_is_hash` -/
  isHash : Bool := false

variable {α : Type}

/-- `_i_has_cmp`: sorting and ordered search exist. include/stc/priv/template.h:153-155. -/
def Defs.hasCmp (d : Defs α) : Bool := d.useCmp || d.cmp.isSome || d.less.isSome

/-- `_i_has_eq`: linear search and equality exist. include/stc/priv/template.h:156-158. -/
def Defs.hasEq (d : Defs α) : Bool := d.useCmp || d.cmp.isSome || d.useEq || d.eq.isSome

/-- Binding to the members of the raw class. include/stc/priv/template.h:161-167. -/
def Defs.bind (d : Defs α) : Defs α :=
  match d.raw with
  | none => d
  | some m =>
    { d with
      cmp := if !(d.cmp.isSome || d.less.isSome) && (d.useCmp || d.sorted || d.pqueue)
             then some m.cmp else d.cmp
      eq := if !d.eq.isSome && (d.useEq || d.hash || d.isHash) then some m.eq else d.eq }

/-- The three expressions the container uses. include/stc/priv/template.h:187-201. -/
structure Ops (α : Type) where
  eq : Cmp2 α
  less : Cmp2 α
  cmp : Cmp2 α

/-- `i_eq` after the defaults. include/stc/priv/template.h:188-192. -/
def fillEq (p : Prim α) (d : Defs α) : Cmp2 α :=
  match d.eq, d.cmp with
  | some e, _ => e
  | none, some c => fun x y => ofBool (c x y == 0)
  | none, none => fun x y => ofBool (p.eq x y)

/-- `i_less` after the defaults. include/stc/priv/template.h:193-197. -/
def fillLess (p : Prim α) (d : Defs α) : Cmp2 α :=
  match d.less, d.cmp with
  | some l, _ => l
  | none, some c => fun x y => ofBool (decide (c x y < 0))
  | none, none => fun x y => ofBool (p.lt x y)

/-- `i_cmp` after the defaults; `i_less` is always defined by then, so line 198 is always taken when
`i_cmp` is missing. include/stc/priv/template.h:198-200. -/
def fillCmp (p : Prim α) (d : Defs α) : Cmp2 α :=
  match d.cmp with
  | some c => c
  | none => fun x y => fillLess p d y x - fillLess p d x y

/-- The whole resolution. include/stc/priv/template.h:153-201. -/
def Defs.ops (p : Prim α) (d : Defs α) : Ops α :=
  { eq := fillEq p d.bind, less := fillLess p d.bind, cmp := fillCmp p d.bind }

/-! Specification. -/

/-- The truth value of an expression. -/
def truth (f : Cmp2 α) : α → α → Bool := fun x y => f x y != 0

/-- `less` and `cmp` describe one and the same ordering. -/
structure Ordered (o : Ops α) : Prop where
  strict : StrictWeak (truth o.less)
  lawful : Smap.Lawful o.cmp
  neg : ∀ x y, o.cmp x y < 0 ↔ truth o.less x y = true
  pos : ∀ x y, 0 < o.cmp x y ↔ truth o.less y x = true

/-- `eq` holds exactly between elements that the ordering does not tell apart. -/
def EqAgrees (o : Ops α) : Prop :=
  ∀ x y, truth o.eq x y = true ↔ truth o.less x y = false ∧ truth o.less y x = false

/-- The built-in operators are those of a total order. -/
structure Total (p : Prim α) : Prop where
  strict : StrictWeak p.lt
  eq : ∀ x y, p.eq x y = true ↔ p.lt x y = false ∧ p.lt y x = false

theorem truth_ofBool (f : α → α → Bool) : truth (fun x y => ofBool (f x y)) = f := by
  funext x y; cases h : f x y <;> simp [truth, ofBool, h]

theorem lawful_pos {cmp : Cmp2 α} (h : Smap.Lawful cmp) (x y : α) : 0 < cmp x y ↔ cmp y x < 0 := by
  have := h.anti x y; omega

/-- Ordering by `cmp < 0`. -/
theorem strict_of_lawful {cmp : Cmp2 α} (h : Smap.Lawful cmp) :
    StrictWeak (fun x y => decide (cmp x y < 0)) where
  asymm a b hab := by
    have := lawful_pos h b a
    simp at hab ⊢; omega
  negtrans a b c h1 h2 := by
    simp at h1 h2 ⊢
    have e1 := h.anti b a
    have e2 := h.anti c b
    have e3 := h.anti c a
    have := h.trans c b a (by omega) (by omega)
    omega

theorem ordered_of_cmp {cmp : Cmp2 α} (h : Smap.Lawful cmp) (e : Cmp2 α) :
    Ordered { eq := e, less := fun x y => ofBool (decide (cmp x y < 0)), cmp := cmp } where
  strict := by rw [truth_ofBool]; exact strict_of_lawful h
  lawful := h
  neg x y := by simp only [truth_ofBool]; simp
  pos x y := by simp only [truth_ofBool]; simp [lawful_pos h x y]

theorem ordered_of_less {less : Cmp2 α} (h : StrictWeak (truth less)) (hn : ∀ x y, 0 ≤ less x y)
    (e : Cmp2 α) :
    Ordered { eq := e, less := less, cmp := fun x y => less y x - less x y } := by
  have as : ∀ x y, less x y ≠ 0 → less y x = 0 := by
    intro x y hxy
    have := h.asymm x y (by simpa [truth] using hxy)
    simpa [truth] using this
  have neg : ∀ x y, less y x - less x y < 0 ↔ less x y ≠ 0 := by
    intro x y
    have := hn x y; have := hn y x
    by_cases h0 : less x y = 0
    · omega
    · have := as x y h0; omega
  refine ⟨h, ⟨?_, ?_⟩, ?_, ?_⟩
  · intro a b; simp only; omega
  · intro a b c h1 h2
    have n1 := neg b a
    have n2 := neg c b
    have n3 := neg c a
    simp only at h1 h2 ⊢
    have t1 : truth less b a = false := by
      have : less b a = 0 := by by_cases h0 : less b a = 0; exact h0; omega
      simp [truth, this]
    have t2 : truth less c b = false := by
      have : less c b = 0 := by by_cases h0 : less c b = 0; exact h0; omega
      simp [truth, this]
    have t3 := h.negtrans c b a t2 t1
    have : less c a = 0 := by simpa [truth] using t3
    omega
  · intro x y; simp only; rw [neg]; simp [truth]
  · intro x y
    have := neg y x
    simp only
    have e : 0 < less y x - less x y ↔ less x y - less y x < 0 := by omega
    rw [e, neg]; simp [truth]

/-- The user gives only `i_cmp`: the ordering is that of `i_cmp` and, without a raw class, so is equality. -/
theorem from_cmp (p : Prim α) (d : Defs α) {c : Cmp2 α} (hc : d.cmp = some c) (hl : d.less = none)
    (h : Smap.Lawful c) :
    Ordered (d.ops p) ∧ (d.ops p).cmp = c ∧ d.hasCmp = true ∧ d.hasEq = true ∧
    (d.eq = none → d.raw = none → EqAgrees (d.ops p)) := by
  have hb : d.bind.cmp = some c ∧ d.bind.less = none := by
    unfold Defs.bind
    cases d.raw <;> simp [hc, hl]
  have he : d.ops p = { eq := fillEq p d.bind, less := fun x y => ofBool (decide (c x y < 0)), cmp := c } := by
    simp [Defs.ops, fillLess, fillCmp, hb.1, hb.2]
  refine ⟨he ▸ ordered_of_cmp h _, by rw [he], by simp [Defs.hasCmp, hc], by simp [Defs.hasEq, hc], ?_⟩
  intro hq hr x y
  rw [he]
  have : fillEq p d.bind = fun x y => ofBool (c x y == 0) := by
    simp [Defs.bind, hr, fillEq, hq, hc]
  simp only [this, truth_ofBool]
  have := lawful_pos h x y
  have := lawful_pos h y x
  simp; omega

/-- The user gives only `i_less`: ordering by `i_cmp` is the same ordering.  Equality is left to `==`
(or to the raw class), so it agrees only if that does; see `from_less_eq_wrong`. -/
theorem from_less_partial (p : Prim α) (d : Defs α) {l : Cmp2 α} (hc : d.cmp = none) (hl : d.less = some l)
    (h : StrictWeak (truth l)) (hn : ∀ x y, 0 ≤ l x y) :
    Ordered (d.ops p) ∧ (d.ops p).less = l ∧ d.hasCmp = true ∧
    (d.eq = none → d.raw = none →
      ((∀ x y, p.eq x y = true ↔ truth l x y = false ∧ truth l y x = false) ↔ EqAgrees (d.ops p))) ∧
    (d.eq = none → (d.hasEq = true ↔ d.useCmp = true ∨ d.useEq = true)) := by
  have hb : d.bind.cmp = none ∧ d.bind.less = some l := by
    unfold Defs.bind
    cases d.raw <;> simp [hc, hl]
  have he : d.ops p = { eq := fillEq p d.bind, less := l, cmp := fun x y => l y x - l x y } := by
    simp [Defs.ops, fillLess, fillCmp, hb.1, hb.2]
  refine ⟨he ▸ ordered_of_less h hn _, by rw [he], by simp [Defs.hasCmp, hl], ?_, ?_⟩
  · intro hq hr
    have : fillEq p d.bind = fun x y => ofBool (p.eq x y) := by
      simp [Defs.bind, hr, fillEq, hq, hc]
    unfold EqAgrees
    rw [he]
    simp only [this, truth_ofBool]
  · intro hq
    simp [Defs.hasEq, hc, hq]

/-- The user gives nothing and the elements have built-in operators: all three agree with them. -/
theorem from_nothing (p : Prim α) (d : Defs α) (hc : d.cmp = none) (hl : d.less = none) (hq : d.eq = none)
    (hr : d.raw = none) (h : Total p) :
    Ordered (d.ops p) ∧ EqAgrees (d.ops p) ∧ truth (d.ops p).less = p.lt ∧ truth (d.ops p).eq = p.eq := by
  have he : d.ops p = { eq := fun x y => ofBool (p.eq x y), less := fun x y => ofBool (p.lt x y),
                        cmp := fun x y => ofBool (p.lt y x) - ofBool (p.lt x y) } := by
    simp [Defs.ops, Defs.bind, hr, fillEq, fillLess, fillCmp, hq, hl, hc]
  rw [he]
  refine ⟨ordered_of_less (by rw [truth_ofBool]; exact h.strict) ?_ _, ?_, truth_ofBool _, truth_ofBool _⟩
  · intro x y; unfold ofBool; split <;> decide
  · intro x y
    simp only [truth_ofBool]
    exact h.eq x y

/-- The elements have a class with `_cmp` and `_eq`, and the container is ordered or asked to compare: all
three come from the class.  The built-in operators are never used. -/
theorem from_class (p : Prim α) (d : Defs α) {m : Members α} (hc : d.cmp = none) (hl : d.less = none)
    (hq : d.eq = none) (hr : d.raw = some m) (hu : d.useCmp = true ∨ d.sorted = true ∨ d.pqueue = true)
    (h : Smap.Lawful m.cmp) (hm : ∀ x y, m.eq x y ≠ 0 ↔ m.cmp x y = 0) :
    Ordered (d.ops p) ∧ EqAgrees (d.ops p) ∧ (d.ops p).cmp = m.cmp ∧ ∀ p', d.ops p' = d.ops p := by
  have hcond : (d.useCmp || d.sorted || d.pqueue) = true := by
    rcases hu with h | h | h <;> simp [h]
  have hb : d.bind.cmp = some m.cmp ∧ d.bind.less = none := by
    simp only [Defs.bind, hr]
    simp [hc, hl, hcond]
  have he : ∀ p : Prim α, d.ops p =
      { eq := fillEq p d.bind, less := (fun x y => ofBool (decide (m.cmp x y < 0))), cmp := m.cmp } := by
    intro p; simp [Defs.ops, fillLess, fillCmp, hb.1, hb.2]
  have hE : ∀ p p' : Prim α, fillEq p d.bind = fillEq p' d.bind := by
    intro p p'; unfold fillEq; rw [hb.1]; cases d.bind.eq <;> rfl
  have hT : ∀ x y, truth (fillEq p d.bind) x y = true ↔ m.cmp x y = 0 := by
    intro x y
    by_cases hue : (d.useEq || d.hash || d.isHash) = true
    · have : fillEq p d.bind = m.eq := by
        simp only [fillEq, Defs.bind, hr]; simp [hq, hue]
      rw [this]; simpa [truth] using hm x y
    · have : d.bind.eq = none := by
        simp only [Defs.bind, hr]; simp only [hq]; simp [hue]
      have : fillEq p d.bind = fun x y => ofBool (m.cmp x y == 0) := by
        simp [fillEq, hb.1, this]
      rw [this, truth_ofBool]; simp
  refine ⟨he p ▸ ordered_of_cmp h _, ?_, by rw [he p], fun p' => by rw [he p, he p', hE p' p]⟩
  intro x y
  have h1 : (d.ops p).eq = fillEq p d.bind := by rw [he p]
  have h2 : (d.ops p).less = fun x y => ofBool (decide (m.cmp x y < 0)) := by rw [he p]
  rw [h1, h2, hT, truth_ofBool]
  have := lawful_pos h x y
  have := lawful_pos h y x
  simp; omega

/-- What the user defines is what is used, whatever else is defined. -/
theorem user_wins (p : Prim α) (d : Defs α) :
    (∀ e, d.eq = some e → (d.ops p).eq = e) ∧ (∀ l, d.less = some l → (d.ops p).less = l) ∧
    (∀ c, d.cmp = some c → (d.ops p).cmp = c) := by
  refine ⟨fun e h => ?_, fun l h => ?_, fun c h => ?_⟩
  · have : d.bind.eq = some e := by unfold Defs.bind; cases d.raw <;> simp [h]
    simp [Defs.ops, fillEq, this]
  · have : d.bind.less = some l := by unfold Defs.bind; cases d.raw <;> simp [h]
    simp [Defs.ops, fillLess, this]
  · have : d.bind.cmp = some c := by unfold Defs.bind; cases d.raw <;> simp [h]
    simp [Defs.ops, fillCmp, this]

/-- A `i_less` that the user did not write is 0 or 1, as the heap needs, which adds it to an index. -/
theorem derived_less_01 (p : Prim α) (d : Defs α) (hl : d.less = none) (x y : α) :
    (d.ops p).less x y = 0 ∨ (d.ops p).less x y = 1 := by
  have : d.bind.less = none := by unfold Defs.bind; cases d.raw <;> simp [hl]
  simp only [Defs.ops, fillLess, this]
  cases d.bind.cmp <;> simp only [ofBool] <;> split <;> simp

/-- Integers with their own operators. -/
def intPrim : Prim Int := { eq := fun a b => a == b, lt := fun a b => decide (a < b) }

/-- Refuted: with `i_less` comparing last digits and `i_use_cmp`, 3 and 13 are neither less nor greater, and
`i_cmp` finds them equal, but `i_eq` does not. -/
theorem from_less_eq_wrong :
    let d : Defs Int := { less := some fun x y => ofBool (decide (x % 10 < y % 10)), useCmp := true }
    d.hasEq = true ∧ (d.ops intPrim).cmp 3 13 = 0 ∧ truth (d.ops intPrim).eq 3 13 = false ∧
    Ordered (d.ops intPrim) ∧ ¬ EqAgrees (d.ops intPrim) := by
  intro d
  refine ⟨rfl, by decide, by decide, ?_, ?_⟩
  · refine (from_less_partial intPrim d (l := fun x y => ofBool (decide (x % 10 < y % 10))) rfl rfl ?_ ?_).1
    · rw [truth_ofBool]
      constructor
      · intro a b; simp; omega
      · intro a b c; simp; omega
    · intro x y; unfold ofBool; split <;> decide
  · intro h
    have := (h 3 13).2 ⟨by decide, by decide⟩
    revert this; decide

/-- Refuted: an `i_less` whose true value is negative, a legal C condition, gives an `i_cmp` that orders the
other way round. -/
theorem from_less_negative_wrong :
    let d : Defs Int := { less := some fun x y => if x < y then -1 else 0 }
    truth (d.ops intPrim).less 1 2 = true ∧ 0 < (d.ops intPrim).cmp 1 2 ∧ ¬ Ordered (d.ops intPrim) := by
  intro d
  refine ⟨by decide, by decide, ?_⟩
  intro h
  have := (h.neg 1 2).2 (by decide)
  revert this; decide

/-! Concrete cases. -/

theorem lawful_sub : Smap.Lawful (fun a b : Int => a - b) where
  anti a b := by omega
  trans a b c := by omega

theorem total_int : Total intPrim where
  strict := ⟨fun a b => by simp [intPrim]; omega, fun a b c => by simp [intPrim]; omega⟩
  eq x y := by simp [intPrim]; omega

example : Ordered (Defs.ops intPrim { cmp := some fun a b => b - a }) :=
  (from_cmp intPrim _ rfl rfl ⟨fun a b => by omega, fun a b c => by omega⟩).1

example : (Defs.ops intPrim { cmp := some fun a b => b - a }).less 5 3 = 1 := by decide

example : (Defs.ops intPrim { less := some fun a b => ofBool (decide (b < a)) }).cmp 5 3 = -1 := by decide

example : EqAgrees (Defs.ops intPrim {}) := (from_nothing intPrim {} rfl rfl rfl rfl total_int).2.1

example : EqAgrees (Defs.ops intPrim
    { raw := some ⟨fun a b => a - b, fun a b => ofBool (a == b)⟩, sorted := true, isHash := true }) :=
  (from_class intPrim _ rfl rfl rfl rfl (.inr (.inl rfl)) lawful_sub
    (fun x y => by by_cases h : x = y <;> simp [ofBool, h]; omega)).2.1

example : (Defs.ops intPrim { cmp := some fun a b => a - b, eq := some fun a b => ofBool (a % 10 == b % 10) }).eq 3 13 = 1 := by
  rw [(user_wins intPrim _).1 _ rfl]; decide

example : (Defs.ops intPrim { cmp := some fun a b => a - b }).less 3 13 = 0 ∨ (Defs.ops intPrim { cmp := some fun a b => a - b }).less 3 13 = 1 :=
  derived_less_01 intPrim _ rfl 3 13

example : Ordered (Defs.ops intPrim { less := some fun a b => ofBool (decide (b < a)) }) :=
  (from_less_partial intPrim _ rfl rfl
    (by rw [truth_ofBool]; exact ⟨fun a b => by simp; omega, fun a b c => by simp; omega⟩)
    (fun x y => by unfold ofBool; split <;> decide)).1

end Verif.Template
