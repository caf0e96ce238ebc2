import Verif.Regex.FitProps
/-
The limits of the compiler as a condition on the pattern: an expression that is not too deep, with at most
31 groups, is compiled.
-/
namespace Verif.Regex.Spec

/-- How many pending operators (parentheses, sequences, alternatives, postfix operators) there are at most
while the expression is read from left to right. -/
def Re.depth {α : Type} : Re α → Nat
  | .one _ => 0
  | .grp _ e => 1 + e.depth
  | .cat a b => max a.depth (1 + b.depth)
  | .alt a b => max a.depth (1 + b.depth)
  | .star e => max e.depth (if e.post then 3 else 1)
  | .plus e => max e.depth (if e.post then 3 else 1)
  | .opt e => max e.depth (if e.post then 3 else 1)

end Verif.Regex.Spec

namespace Verif.Regex
open Spec (Tok Re G Sur Spells)

/-- Undefined, or a value with the property; not an error. -/
def R.Good {β : Type} (Q : β → Prop) : R β → Prop
  | .ub => True
  | .err _ => False
  | .ok b => Q b

theorem R.Good.bind {β γ : Type} {Q : β → Prop} {Q' : γ → Prop} {r : R β} {f : β → R γ} (h : r.Good Q) (hf : ∀ b, Q b → (f b).Good Q') : (r.bind f).Good Q' := by
  cases r with
  | ub => exact h
  | err => exact h
  | ok b => exact hf b h

theorem R.Good.mono {β : Type} {Q Q' : β → Prop} {r : R β} (h : r.Good Q) (hq : ∀ b, Q b → Q' b) : r.Good Q' := by
  cases r with
  | ub => exact h
  | err => exact h
  | ok b => exact hq b h

theorem newInst_good {cap : Nat} {h : List Inst} {op : Op} {nx : Option Nat} : (newInst cap h op nx).Good (fun _ => True) := by
  unfold newInst; split <;> trivial

theorem setNext_good {h : List Inst} {p k : Nat} : (setNext h p k).Good (fun _ => True) := by
  unfold setNext; split <;> trivial

theorem popand_good {a : List Node} (h : 0 < a.length) : (popand a).Good (fun x => x.2.length + 1 = a.length) := by
  cases a with
  | nil => simp at h
  | cons n a => simp [popand, R.Good]

theorem pushand_good {a : List Node} {f l : Nat} (h : a.length < 20) : (pushand a f l).Good (fun a' => a'.length = a.length + 1) := by
  unfold pushand
  rw [if_pos (by unfold NSTACK; omega)]
  simp [R.Good]

theorem reduce_good {cap : Nat} {x : Heap} {t : Ator} {id : Nat} (ht : t ≠ .bot) (hx : 1 + t.bin ≤ x.ands.length) (hl : x.ands.length ≤ 20) :
    (reduce cap x t id).Good (fun x' => x'.ands.length + t.bin = x.ands.length) := by
  cases t with
  | bot => exact absurd rfl ht
  | lbra =>
    simp only [Ator.bin] at hx ⊢
    refine (popand_good (by omega)).bind fun ⟨n1, a⟩ h1 => ?_
    simp only at h1
    refine newInst_good.bind fun h _ => ?_
    refine setNext_good.bind fun h' _ => ?_
    refine newInst_good.bind fun h'' _ => ?_
    refine (pushand_good (by omega)).bind fun a' h5 => ?_
    simp only [R.Good] at *
    omega
  | or =>
    simp only [Ator.bin] at hx ⊢
    refine (popand_good (by omega)).bind fun ⟨n2, a⟩ h0 => ?_
    simp only at h0
    refine (popand_good (by omega)).bind fun ⟨n1, a'⟩ h1 => ?_
    simp only at h1
    refine newInst_good.bind fun h _ => ?_
    refine setNext_good.bind fun h' _ => ?_
    refine setNext_good.bind fun h' _ => ?_
    refine newInst_good.bind fun h'' _ => ?_
    refine (pushand_good (by omega)).bind fun a' h5 => ?_
    simp only [R.Good] at *
    omega
  | cat =>
    simp only [Ator.bin] at hx ⊢
    refine (popand_good (by omega)).bind fun ⟨n2, a⟩ h0 => ?_
    simp only at h0
    refine (popand_good (by omega)).bind fun ⟨n1, a'⟩ h1 => ?_
    simp only at h1
    refine setNext_good.bind fun h' _ => ?_
    refine (pushand_good (by omega)).bind fun a' h5 => ?_
    simp only [R.Good] at *
    omega
  | star | plus =>
    simp only [Ator.bin] at hx ⊢
    refine (popand_good (by omega)).bind fun ⟨n2, a⟩ h0 => ?_
    simp only at h0
    refine newInst_good.bind fun h _ => ?_
    refine setNext_good.bind fun h' _ => ?_
    refine (pushand_good (by omega)).bind fun a' h5 => ?_
    simp only [R.Good] at *
    omega
  | quest =>
    simp only [Ator.bin] at hx ⊢
    refine (popand_good (by omega)).bind fun ⟨n2, a⟩ h0 => ?_
    simp only at h0
    refine newInst_good.bind fun h _ => ?_
    refine newInst_good.bind fun h' _ => ?_
    refine setNext_good.bind fun h' _ => ?_
    refine (pushand_good (by omega)).bind fun a' h5 => ?_
    simp only [R.Good] at *
    omega

/-- The operators without the numbers of the groups. -/
def ops (o : List (Ator × Nat)) : List Ator := o.map (·.1)

def nbins (o : List Ator) : Nat := (o.map Ator.bin).sum

theorem nbins_cons (t : Ator) (o : List Ator) : nbins (t :: o) = t.bin + nbins o := rfl
theorem nbins_app : ∀ (a b : List Ator), nbins (a ++ b) = nbins a + nbins b
  | [], b => by simp [nbins]
  | t :: a, b => by rw [List.cons_append, nbins_cons, nbins_cons, nbins_app a b]; omega

theorem bin_le (t : Ator) : t.bin ≤ 1 := by cases t <;> simp [Ator.bin]

/-- Operators of a precedence of at least `pri` are evaluated, down to the first lower one. -/
theorem evaluntil_good {cap pri : Nat} (h2 : pri ≠ 2) {b : Ator} {lo : List Ator} (hb : b.prec < pri) : ∀ {hi : List Ator} {o : List (Ator × Nat)} {x : Heap},
    ops o = hi ++ b :: lo → (∀ t ∈ hi, pri ≤ t.prec ∧ t ≠ .lbra ∧ t ≠ .bot) → x.ands.length = 1 + nbins (hi ++ b :: lo) → x.ands.length ≤ 20 →
    (evaluntil cap pri o x).Good (fun y => ops y.1 = b :: lo ∧ y.2.ands.length = 1 + nbins (b :: lo))
  | _, [], _, ho, _, _, _ => by simp [ops] at ho
  | [], (t, id) :: o, x, ho, _, hx, _ => by
    have ho' := ho
    simp only [ops, List.map_cons, List.nil_append, List.cons.injEq] at ho
    rw [evaluntil, if_neg (by rw [ho.1]; omega)]
    exact ⟨ho', hx⟩
  | q :: hi, (t, id) :: o, x, ho, hq, hx, hl => by
    simp only [ops, List.map_cons, List.cons_append, List.cons.injEq] at ho
    obtain ⟨rfl, ho⟩ := ho
    obtain ⟨q1, q2, q3⟩ := hq t (by simp)
    rw [List.cons_append, nbins_cons] at hx
    rw [evaluntil, if_pos (.inr q1)]
    refine (reduce_good q3 (by omega) hl).bind fun x' h1 => ?_
    rw [if_neg q2]
    exact evaluntil_good h2 hb ho (fun t ht => hq t (by simp [ht])) (by omega) (by omega)

/-- A right parenthesis: down to the left one. -/
theorem evalrbra_good {cap : Nat} {lo : List Ator} : ∀ {hi : List Ator} {o : List (Ator × Nat)} {x : Heap},
    ops o = hi ++ .lbra :: lo → (∀ t ∈ hi, t ≠ .lbra ∧ t ≠ .bot) → x.ands.length = 1 + nbins (hi ++ .lbra :: lo) → x.ands.length ≤ 20 →
    (evaluntil cap 2 o x).Good (fun y => ops y.1 = lo ∧ y.2.ands.length = 1 + nbins lo)
  | _, [], _, ho, _, _, _ => by simp [ops] at ho
  | [], (t, id) :: o, x, ho, _, hx, hl => by
    simp only [ops, List.map_cons, List.nil_append, List.cons.injEq] at ho
    obtain ⟨rfl, ho⟩ := ho
    rw [List.nil_append, nbins_cons] at hx
    rw [evaluntil, if_pos (.inl rfl)]
    refine (reduce_good (by simp) (by omega) hl).bind fun x' h1 => ?_
    rw [if_pos rfl]
    exact ⟨ho, by simp only; omega⟩
  | q :: hi, (t, id) :: o, x, ho, hq, hx, hl => by
    simp only [ops, List.map_cons, List.cons_append, List.cons.injEq] at ho
    obtain ⟨rfl, ho⟩ := ho
    obtain ⟨q2, q3⟩ := hq t (by simp)
    rw [List.cons_append, nbins_cons] at hx
    rw [evaluntil, if_pos (.inl rfl)]
    refine (reduce_good q3 (by omega) hl).bind fun x' h1 => ?_
    rw [if_neg q2]
    exact evalrbra_good ho (fun t ht => hq t (by simp [ht])) (by omega) (by omega)

/-- The top operator is of a precedence below `p`; there are fewer binary operators than operators, and
room for all. -/
structure Low (p : Nat) (o : List Ator) : Prop where
  top : ∃ b lo, o = b :: lo ∧ b.prec < p
  bins : nbins o + 1 ≤ o.length

theorem Low.push {p q : Nat} {o : List Ator} (h : Low p o) {t : Ator} (ht : t.prec < q) : Low q (t :: o) :=
  ⟨⟨t, o, rfl, ht⟩, by rw [nbins_cons, List.length_cons]; have := bin_le t; have := h.bins; omega⟩

theorem Low.le {p q : Nat} {o : List Ator} (h : Low p o) (hp : p ≤ q) : Low q o := by
  obtain ⟨⟨b, lo, h1, h2⟩, h3⟩ := h
  exact ⟨⟨b, lo, h1, by omega⟩, h3⟩

theorem nbins_len (a : List Ator) : nbins a ≤ a.length := by
  induction a with
  | nil => simp [nbins]
  | cons t a ih => rw [nbins_cons, List.length_cons]; have := bin_le t; omega

/-- An operand is complete: above `o` there are operators of a precedence of at least `p`. -/
structure Full (s : PS) (p : Nat) (hi o : List Ator) : Prop where
  last : s.lastand = true
  ators : ops s.ators = hi ++ o
  high : ∀ t ∈ hi, p ≤ t.prec ∧ t ≠ .lbra ∧ t ≠ .bot
  ands : s.x.ands.length = 1 + nbins (hi ++ o)

/-- An operand is awaited on top of `o`. -/
structure Empty (s : PS) (o : List Ator) : Prop where
  last : s.lastand = false
  ators : ops s.ators = o
  ands : s.x.ands.length = nbins o

theorem pushator_good {s : PS} {t : Ator} (h : (ops s.ators).length < 20) : (pushator s t).Good (fun s' => s' = { s with ators := (t, s.cursub) :: s.ators }) := by
  unfold pushator
  rw [if_pos (by unfold ops at h; rw [List.length_map] at h; exact h)]
  rfl

theorem operator_good {cap p : Nat} {s : PS} {t : Ator} {hi o : List Ator} (ht : 3 < t.prec) (hh : ∀ t' ∈ hi, t.prec ≤ t'.prec) (h : Full s p hi o) (hlo : Low t.prec o)
    (hlen : (hi ++ o).length ≤ 20) (ho : o.length < 20) :
    (operator cap s t).Good (fun s' => s'.lastand = t.like ∧ ops s'.ators = t :: o ∧ s'.x.ands.length = 1 + nbins o ∧ s'.nbra = s.nbra ∧ s'.cursub = s.cursub) := by
  unfold operator
  obtain ⟨⟨b, lo, rfl, hb⟩, h3⟩ := hlo
  have hn : nbins hi ≤ hi.length := nbins_len _
  have ha := h.ands
  have hA := h.ands
  rw [nbins_app] at hA
  rw [List.length_append] at hlen
  refine (evaluntil_good (by omega) hb h.ators (fun t' ht' => ⟨hh t' ht', (h.high t' ht').2⟩) ha (by omega)).bind fun ⟨o', x⟩ h1 => ?_
  simp only at h1
  refine (pushator_good (by simp only; rw [h1.1]; omega)).bind fun s' h2 => ?_
  subst h2
  refine ⟨rfl, ?_, h1.2, rfl, rfl⟩
  simp only [ops, List.map_cons] at h1 ⊢
  rw [h1.1]

/-- Before an item: either an operand is awaited on `o`, or a sequence is to be continued and then one is
awaited on `o`. -/
def Pre (s : PS) (o : List Ator) : Prop := Empty s o ∨ ∃ hi o', o = .cat :: o' ∧ Full s 5 hi o' ∧ Low 5 o' ∧ (hi ++ o').length ≤ 20

theorem cat_good {cap : Nat} {s : PS} {o : List Ator} (h : Pre s o) (ho : o.length ≤ 20) :
    (if s.lastand then operator cap s .cat else .ok s).Good (fun s' => Empty s' o ∧ s'.nbra = s.nbra ∧ s'.cursub = s.cursub) := by
  rcases h with h | ⟨hi, o', rfl, h, hlo, hlen⟩
  · rw [h.last]
    exact ⟨h, rfl, rfl⟩
  · rw [h.last]
    simp only [if_true]
    refine (operator_good (t := .cat) (by simp [Ator.prec]) (fun t ht => (h.high t ht).1) h hlo hlen (by simp only [List.length_cons] at ho; omega)).mono fun s' h1 => ?_
    obtain ⟨h1, h2, h3, h4, h5⟩ := h1
    exact ⟨⟨h1, h2, by rw [h3, nbins_cons]; rfl⟩, h4, h5⟩

theorem operand_good {cap : Nat} {s : PS} {op : Op} {o : List Ator} (h : Pre s o) (hlo : Low 6 o) (ho : o.length ≤ 20) :
    (operand cap s op).Good (fun s' => Full s' 6 [] o ∧ s'.nbra = s.nbra ∧ s'.cursub = s.cursub) := by
  unfold operand
  refine (cat_good h ho).bind fun s' ⟨h1, h2, h3⟩ => ?_
  refine newInst_good.bind fun hh _ => ?_
  have := hlo.bins
  refine (pushand_good (by have := h1.ands; omega)).bind fun a h4 => ?_
  refine ⟨⟨rfl, h1.ators, by simp, ?_⟩, h2, h3⟩
  simp only
  rw [h4, h1.ands, List.nil_append]
  omega

theorem G_mono {α : Type} {lv n n' : Nat} {ts : List (Tok α)} {e : Re α} (h : G lv n ts e n') : n ≤ n' := by
  induction h <;> omega

theorem Pre.id {s : PS} {o : List Ator} (h : Pre s o) (a b : Nat) : Pre { s with cursub := a, nbra := b } o := by
  rcases h with ⟨h1, h2, h3⟩ | ⟨hi, o', h0, ⟨h1, h2, h3, h4⟩, h5, h6⟩
  · exact .inl ⟨h1, h2, h3⟩
  · exact .inr ⟨hi, o', h0, ⟨h1, h2, h3, h4⟩, h5, h6⟩

theorem desc_len : ∀ {os : List Ator} {p : Nat}, Desc os → (∀ x ∈ os, x.prec < 6 + p) → os.length ≤ p
  | [], _, _, _ => by simp
  | o :: os, p, h, hp => by
    have h1 := like_prec h.1
    have h2 := hp o (by simp)
    have := desc_len (p := p - 1) h.2.2 fun x hx => by have := h.2.1 x hx; omega
    rw [List.length_cons]
    omega

theorem desc_split {t : Ator} (ht : t.like = true) : ∀ {os : List Ator}, Desc os → ∃ hi lo, os = hi ++ lo ∧ (∀ x ∈ hi, t.prec ≤ x.prec) ∧ Desc (t :: lo)
  | [], _ => ⟨[], [], rfl, by simp, ht, by simp, trivial⟩
  | o :: os, h => by
    by_cases hp : t.prec ≤ o.prec
    · obtain ⟨hi, lo, h1, h2, h3⟩ := desc_split ht h.2.2
      refine ⟨o :: hi, lo, by rw [h1]; rfl, fun x hx => ?_, h3⟩
      rcases List.mem_cons.1 hx with rfl | hx
      · exact hp
      · exact h2 x hx
    · refine ⟨[], o :: os, rfl, by simp, ht, fun x hx => ?_, h⟩
      rcases List.mem_cons.1 hx with rfl | hx
      · omega
      · have := h.2.1 x hx; omega

theorem like_bin {t : Ator} (h : t.like = true) : t.bin = 0 ∧ t ≠ .bot := by cases t <;> simp [Ator.like, Ator.bin] at *

theorem nbins_like : ∀ {os : List Ator}, Desc os → nbins os = 0
  | [], _ => rfl
  | o :: os, h => by rw [nbins_cons, (like_bin h.1).1, nbins_like h.2.2]

theorem post_good {cap : Nat} {s : PS} {t : Ator} {os o : List Ator} (ht : t.like = true) (hd : Desc os) (h : Full s 6 os o) (hlo : Low 6 o) (hlen : (os ++ o).length ≤ 20)
    (h3 : o.length + (if os = [] then 1 else 3) ≤ 20) :
    (operator cap s t).Good (fun s' => ∃ os', Full s' 6 os' o ∧ Desc os' ∧ os'.length ≤ (if os = [] then 1 else 3) ∧ s'.nbra = s.nbra ∧ s'.cursub = s.cursub) := by
  obtain ⟨hi, lo, rfl, h1, h2⟩ := desc_split ht hd
  have hl3 : (t :: lo).length ≤ (if hi ++ lo = [] then 1 else 3) := by
    split
    · rename_i h0
      obtain ⟨-, rfl⟩ := List.append_eq_nil_iff.1 h0
      simp
    · refine desc_len h2 fun x hx => ?_
      have := (like_prec (h2.mem x hx)).2.1
      omega
  have hlow : Low t.prec (lo ++ o) := by
    obtain ⟨⟨b, r, rfl, hb⟩, h4⟩ := hlo
    have hdl : Desc lo := h2.2.2
    refine ⟨?_, by rw [nbins_app, nbins_like hdl, List.length_append]; omega⟩
    cases lo with
    | nil => exact ⟨b, r, rfl, by have := (like_prec ht).1; omega⟩
    | cons q lo => exact ⟨q, _, rfl, h2.2.1 q (by simp)⟩
  have hf : Full s 6 hi (lo ++ o) := ⟨h.last, by rw [h.ators, List.append_assoc], fun x hx => h.high x (by simp [hx]), by rw [h.ands, List.append_assoc]⟩
  have hp := like_prec ht
  refine (operator_good (by omega) h1 hf hlow (by rw [← List.append_assoc]; exact hlen) (by rw [List.length_append]; simp only [List.length_cons] at hl3; omega)).mono fun s' q => ?_
  obtain ⟨q1, q2, q3, q4, q5⟩ := q
  refine ⟨t :: lo, ⟨by rw [q1, ht], by rw [q2]; rfl, fun x hx => ?_, ?_⟩, h2, hl3, q4, q5⟩
  · have := like_prec (h2.mem x hx)
    exact ⟨this.1, this.2.2, (like_bin (h2.mem x hx)).2⟩
  · rw [q3, List.cons_append, nbins_cons, (like_bin ht).1]
    omega

/-- What the three levels of the grammar do with the stacks. -/
def Level (cap lv n : Nat) (ts : List (Tok Op)) (e : Re Op) (n' : Nat) : Prop :=
  ∀ s o, s.cursub = n → n' ≤ 31 → o.length + e.depth ≤ 20 →
    match lv with
    | 2 => Pre s o → Low 6 o → (tokens cap ts s).Good (fun s' => ∃ os, Full s' 6 os o ∧ Desc os ∧ os.length ≤ e.depth ∧ (e.post = false → os = []) ∧ s'.nbra = s.nbra ∧ s'.cursub = n')
    | 1 => Empty s o → Low 5 o → (tokens cap ts s).Good (fun s' => ∃ hi, Full s' 5 hi o ∧ hi.length ≤ e.depth ∧ s'.nbra = s.nbra ∧ s'.cursub = n')
    | _ => Empty s o → Low 4 o → (tokens cap ts s).Good (fun s' => ∃ hi, Full s' 4 hi o ∧ hi.length ≤ e.depth ∧ s'.nbra = s.nbra ∧ s'.cursub = n')

theorem lv_post {cap n n' : Nat} {ts : List (Tok Op)} {e e' : Re Op} {t : Ator} {tk : Tok Op} (ht : t.like = true) (htk : ∀ s, token cap s tk = operator cap s t)
    (he : e'.depth = max e.depth (if e.post then 3 else 1)) (hp : e'.post = true) (ih : Level cap 2 n ts e n') : Level cap 2 n (ts ++ [tk]) e' n' := by
  intro s o hc hn hd hpre hlow
  rw [tokens_app]
  refine (ih s o hc hn (by omega) hpre hlow).bind fun s1 h1 => ?_
  obtain ⟨os, h1, h2, h3, h4, h5, h6⟩ := h1
  rw [tokens_one, htk]
  have hif : (if os = [] then 1 else 3) ≤ (if e.post then 3 else 1) := by
    cases hq : e.post with
    | false => rw [h4 hq]; simp
    | true => split <;> simp
  refine (post_good ht h2 h1 hlow (by rw [List.length_append]; omega) (by omega)).mono fun s2 h7 => ?_
  obtain ⟨os', q1, q2, q3, q4, q5⟩ := h7
  exact ⟨os', q1, q2, by omega, (fun h => by rw [hp] at h; cases h), by rw [q4, h5], by rw [q5, h6]⟩

theorem G_good {cap lv n n' : Nat} {ts : List (Tok Op)} {e : Re Op} (h : G lv n ts e n') : Level cap lv n ts e n' := by
  induction h with
  | one =>
    intro s o hc hn hd hpre hlow
    rw [tokens_one]
    refine (operand_good hpre hlow (by omega)).mono fun s' h1 => ?_
    exact ⟨[], h1.1, trivial, Nat.zero_le _, fun _ => rfl, h1.2.1, by rw [h1.2.2, hc]⟩
  | @grp n n' ts e hg ih =>
    intro s o hc hn hd hpre hlow
    have hnn := G_mono hg
    simp only [Re.depth] at hd
    simp only [tokens, token]
    refine R.Good.bind (Q := fun s' => Empty s' (.lbra :: o) ∧ s'.nbra = s.nbra + 1 ∧ s'.cursub = n + 1) ?_ fun s1 h1 => ?_
    · unfold operatorL
      rw [if_neg (by unfold NSUBEXP; omega)]
      refine (cat_good (hpre.id (s.cursub + 1) (s.nbra + 1)) (by omega)).bind fun s1 h1 => ?_
      obtain ⟨h1, h2, h3⟩ := h1
      refine (pushator_good (by rw [h1.ators]; omega)).bind fun s2 h4 => ?_
      subst h4
      refine ⟨⟨rfl, ?_, ?_⟩, h2, by simp only at h3 ⊢; omega⟩
      · have := h1.ators
        simp only [ops, List.map_cons] at this ⊢
        rw [this]
      · simp only
        rw [h1.ands, nbins_cons]
        simp [Ator.bin]
    · obtain ⟨h1, h2, h3⟩ := h1
      rw [tokens_app]
      refine (ih s1 (.lbra :: o) h3 hn (by rw [List.length_cons]; omega) h1 (hlow.push (by simp [Ator.prec]))).bind fun s2 h4 => ?_
      obtain ⟨hi, q1, q2, q3, q4⟩ := h4
      rw [tokens_one]
      simp only [token]
      unfold operatorR
      rw [if_neg (by omega)]
      have hA := q1.ands
      have hb := hlow.bins
      have hl := nbins_len hi
      rw [nbins_app, nbins_cons] at hA
      simp only [Ator.bin] at hA
      refine (evalrbra_good q1.ators (fun t ht => (q1.high t ht).2) q1.ands (by omega)).bind fun ⟨o', x⟩ h5 => ?_
      simp only at h5
      exact ⟨[], ⟨rfl, h5.1, by simp, h5.2⟩, trivial, Nat.zero_le _, fun _ => rfl, by simp only; omega, q4⟩
  | star _ ih => exact lv_post (t := .star) rfl (fun _ => rfl) rfl rfl ih
  | plus _ ih => exact lv_post (t := .plus) rfl (fun _ => rfl) rfl rfl ih
  | opt _ ih => exact lv_post (t := .quest) rfl (fun _ => rfl) rfl rfl ih
  | item _ ih =>
    intro s o hc hn hd hpre hlow
    refine (ih s o hc hn hd (.inl hpre) (hlow.le (by omega))).mono fun s' h1 => ?_
    obtain ⟨os, h1, h2, h3, h4, h5, h6⟩ := h1
    exact ⟨os, ⟨h1.last, h1.ators, fun t ht => ⟨by have := (h1.high t ht).1; omega, (h1.high t ht).2⟩, h1.ands⟩, h3, h5, h6⟩
  | @cat n n' n'' ts us a b hga hgb ih1 ih2 =>
    intro s o hc hn hd hpre hlow
    have := G_mono hgb
    simp only [Re.depth] at hd
    rw [tokens_app]
    refine (ih1 s o hc (by omega) (by omega) hpre hlow).bind fun s1 h1 => ?_
    obtain ⟨hi, q1, q2, q3, q4⟩ := h1
    refine (ih2 s1 (.cat :: o) q4 hn (by rw [List.length_cons]; omega) (.inr ⟨hi, o, rfl, q1, hlow, by rw [List.length_append]; omega⟩) (hlow.push (by simp [Ator.prec]))).mono fun s2 h2 => ?_
    obtain ⟨os, h1, h2, h3, h4, h5, h6⟩ := h2
    refine ⟨os ++ [.cat], ⟨h1.last, by rw [h1.ators]; simp, fun t ht => ?_, by rw [h1.ands]; simp⟩, by rw [List.length_append]; simp only [Re.depth, List.length_singleton]; omega, by rw [h5, q3], h6⟩
    rcases List.mem_append.1 ht with ht | ht
    · exact ⟨by have := (h1.high t ht).1; omega, (h1.high t ht).2⟩
    · rw [List.mem_singleton] at ht
      subst ht
      simp [Ator.prec]
  | seq _ ih =>
    intro s o hc hn hd hpre hlow
    refine (ih s o hc hn hd hpre (hlow.le (by omega))).mono fun s' h1 => ?_
    obtain ⟨hi, h1, h2, h3, h4⟩ := h1
    exact ⟨hi, ⟨h1.last, h1.ators, fun t ht => ⟨by have := (h1.high t ht).1; omega, (h1.high t ht).2⟩, h1.ands⟩, h2, h3, h4⟩
  | @alt n n' n'' ts us a b hga hgb ih1 ih2 =>
    intro s o hc hn hd hpre hlow
    have := G_mono hgb
    simp only [Re.depth] at hd
    rw [tokens_app]
    refine (ih1 s o hc (by omega) (by omega) hpre hlow).bind fun s1 h1 => ?_
    obtain ⟨hi, q1, q2, q3, q4⟩ := h1
    simp only [tokens, token]
    refine R.Good.bind (Q := fun s' => Empty s' (.or :: o) ∧ s'.nbra = s1.nbra ∧ s'.cursub = n') ?_ fun s2 h2 => ?_
    · refine (operator_good (t := .or) (by simp [Ator.prec]) (fun t ht => (q1.high t ht).1) q1 hlow (by rw [List.length_append]; omega) (by omega)).mono fun s2 h2 => ?_
      obtain ⟨h1, h2, h3, h4, h5⟩ := h2
      exact ⟨⟨h1, h2, by rw [h3, nbins_cons]; rfl⟩, h4, by rw [h5, q4]⟩
    · obtain ⟨h1, h2, h3⟩ := h2
      refine (ih2 s2 (.or :: o) h3 hn (by rw [List.length_cons]; omega) h1 (hlow.push (by simp [Ator.prec]))).mono fun s3 h4 => ?_
      obtain ⟨hi', r1, r2, r3, r4⟩ := h4
      refine ⟨hi' ++ [.or], ⟨r1.last, by rw [r1.ators]; simp, fun t ht => ?_, by rw [r1.ands]; simp⟩, by rw [List.length_append]; simp only [Re.depth, List.length_singleton]; omega, by rw [r3, h2, q3], r4⟩
      rcases List.mem_append.1 ht with ht | ht
      · exact ⟨by have := (r1.high t ht).1; omega, (r1.high t ht).2⟩
      · rw [List.mem_singleton] at ht
        subst ht
        simp [Ator.prec]

/-- An expression with at most 19 pending operators and 31 groups is compiled without an error. -/
theorem compile_good {cap n : Nat} {ic : Bool} {ts : List (Tok Op)} {e : Re Op} (h : G 0 0 ts e n) (hd : e.depth ≤ 19) (hn : n ≤ 31) : (compile cap ic ts).Good (fun y => y.2 = n) := by
  have h0 : Empty ps0 [.bot] := ⟨rfl, rfl, rfl⟩
  have hl0 : Low 1 [.bot] := ⟨⟨.bot, [], rfl, by simp [Ator.prec]⟩, by simp [nbins, Ator.bin]⟩
  unfold compile
  refine (G_good h ps0 [.bot] rfl hn (by simp only [List.length_singleton]; omega) h0 (hl0.le (by omega))).bind fun s1 h1 => ?_
  obtain ⟨hi, h1, h2, h3, h4⟩ := h1
  have hA := h1.ands
  have hl := nbins_len hi
  rw [nbins_app] at hA
  have hb : nbins [.bot] = 0 := rfl
  refine (evaluntil_good (pri := 1) (b := .bot) (by omega) (by simp [Ator.prec]) h1.ators (fun t ht => ⟨by have := (h1.high t ht).1; omega, (h1.high t ht).2⟩) h1.ands (by omega)).bind fun ⟨o, x⟩ h5 => ?_
  simp only at h5
  have hf : Full { s1 with x := x, ators := o } 5 [] [.bot] := ⟨h1.last, h5.1, by simp, h5.2⟩
  refine (operand_good (.inr ⟨[], _, rfl, hf, hl0.le (by omega), by simp⟩) (hl0.push (by simp [Ator.prec])) (by simp)).bind fun s2 h6 => ?_
  obtain ⟨h6, h7, h8⟩ := h6
  have hf2 : Full s2 1 [.cat] [.bot] := ⟨h6.last, h6.ators, by simp [Ator.prec], h6.ands⟩
  refine (evaluntil_good (pri := 1) (b := .bot) (by omega) (by simp [Ator.prec]) hf2.ators hf2.high hf2.ands (by rw [hf2.ands]; simp [nbins, Ator.bin])).bind fun ⟨o3, x3⟩ h9 => ?_
  simp only at h7 h8 h9 ⊢
  rw [if_neg (by rw [h7, h3]; simp [ps0])]
  cases hx : x3.ands with
  | nil => trivial
  | cons nd nds =>
    simp only
    split
    · trivial
    · exact h8.trans h4

/-! ### the number of groups -/

/-- Undefined, an error, or a value with the property. -/
def R.Part {β : Type} (Q : β → Prop) : R β → Prop
  | .ok b => Q b
  | _ => True

theorem R.Part.bind {β γ : Type} {Q : β → Prop} {Q' : γ → Prop} {r : R β} {f : β → R γ} (h : r.Part Q) (hf : ∀ b, Q b → (f b).Part Q') : (r.bind f).Part Q' := by
  cases r with
  | ub => trivial
  | err => trivial
  | ok b => exact hf b h

theorem R.part {β : Type} (r : R β) : r.Part (fun _ => True) := by cases r <;> trivial

theorem pushator_part {s : PS} {t : Ator} : (pushator s t).Part (fun s' => s'.cursub = s.cursub) := by
  unfold pushator
  split
  · rfl
  · trivial

theorem operator_part {cap : Nat} {s : PS} {t : Ator} : (operator cap s t).Part (fun s' => s'.cursub = s.cursub) := by
  unfold operator
  refine (R.part _).bind fun ⟨o, x⟩ _ => ?_
  exact pushator_part.bind fun s' h => h

theorem cat_part {cap : Nat} {s : PS} : (if s.lastand then operator cap s .cat else .ok s).Part (fun s' => s'.cursub = s.cursub) := by
  split
  · exact operator_part
  · rfl

theorem operand_part {cap : Nat} {s : PS} {op : Op} : (operand cap s op).Part (fun s' => s'.cursub = s.cursub) := by
  unfold operand
  refine cat_part.bind fun s' h => ?_
  refine (R.part _).bind fun _ _ => ?_
  exact (R.part _).bind fun _ _ => h

theorem token_part {cap : Nat} {s : PS} {t : Tok Op} (h : s.cursub ≤ 31) : (token cap s t).Part (fun s' => s'.cursub ≤ 31) := by
  have op : ∀ {r : R PS}, r.Part (fun s' => s'.cursub = s.cursub) → r.Part (fun s' => s'.cursub ≤ 31) := by
    intro r hr
    cases r with
    | ub => trivial
    | err => trivial
    | ok b => simp only [R.Part] at *; omega
  cases t with
  | one o => exact op operand_part
  | bar | star | plus | opt => exact op operator_part
  | lpar =>
    simp only [token]
    unfold operatorL
    split
    · trivial
    · rename_i hc
      unfold NSUBEXP at hc
      refine (cat_part (s := { s with cursub := s.cursub + 1, nbra := s.nbra + 1 })).bind fun s1 h1 => ?_
      refine pushator_part.bind fun s2 h2 => ?_
      simp only [R.Part] at *
      omega
  | rpar =>
    simp only [token]
    unfold operatorR
    split
    · trivial
    · exact (R.part _).bind fun _ _ => h

theorem parseLoop_part {cap : Nat} : ∀ {f : Nat} {st : LS} {s : PS}, s.cursub ≤ 31 → (parseLoop cap f st s).Part (fun s' => s'.cursub ≤ 31)
  | 0, _, _, _ => trivial
  | f + 1, st, s, h => by
    rw [parseLoop]
    refine (R.part _).bind fun ⟨t, st'⟩ _ => ?_
    cases t with
    | none => exact h
    | some t => exact (token_part h).bind fun s' h' => parseLoop_part h'

theorem finish_part {cap : Nat} {ic : Bool} {s : PS} (h : s.cursub ≤ 31) : (finishComp cap ic s).Part (fun y => y.2 ≤ 31) := by
  unfold finishComp
  refine (R.part _).bind fun ⟨o, x⟩ _ => ?_
  refine operand_part.bind fun s' h' => ?_
  refine (R.part _).bind fun ⟨o', x'⟩ _ => ?_
  simp only at h' ⊢
  split
  · trivial
  · split
    · trivial
    · split
      · trivial
      · simp only [R.Part]
        omega

/-! ### the properties -/

section
variable {n k bytes : Nat} {ic dot : Bool} {s : List Nat} {l : List (Tok Sur)} {P : Prog} {E : Env} {U : Test → Nat → Bool} {cs : List Nat} {pre rest : List Verif.Utf8.Byte}

theorem map_depth {α β : Type} {f : α → β} : ∀ e : Re α, (e.map f).depth = e.depth
  | .one _ => rfl
  | .grp _ e => by simp only [Re.map, Re.depth, map_depth e]
  | .cat a b => by simp only [Re.map, Re.depth, map_depth a, map_depth b]
  | .alt a b => by simp only [Re.map, Re.depth, map_depth a, map_depth b]
  | .star e => by simp only [Re.map, Re.depth, map_depth e, map_post]
  | .plus e => by simp only [Re.map, Re.depth, map_depth e, map_post]
  | .opt e => by simp only [Re.map, Re.depth, map_depth e, map_post]

/-- Every pattern of the grammar with at most 16 classes, 31 groups and 19 pending operators is compiled. -/
theorem pattern_compiles (hs : Spells ic s l) (hn : (l.filter isCls).length ≤ 16) (hb : s.length ≤ bytes) {e : Re Sur} (hg : G 0 0 l e n) (hd : e.depth ≤ 19) (h31 : n ≤ 31) :
    ∃ P, regcomp ic dot bytes s = .ok (P, n) := by
  have h1 := compile_good (cap := 5 + 6 * bytes) (ic := ic) (G_map (opOf ic dot) hg) (by rw [map_depth]; exact hd) h31
  rcases pattern_accepted (dot := dot) hs hn hb hg with h | ⟨x, h, -⟩
  · exact h
  · rw [regcomp_spells hs hn] at h
    rw [h] at h1
    cases h1

/-- No text whatsoever is compiled to a program with more than 31 groups; the array of a match has room for
the whole match and 31 groups. -/
theorem compiled_groups (hc : regcomp ic dot bytes s = .ok (P, n)) : n ≤ 31 := by
  have : (regcomp ic dot bytes s).Part (fun y => y.2 ≤ 31) := by
    unfold regcomp
    exact (parseLoop_part (by simp [ps0])).bind fun s' h => finish_part h
  rw [hc] at this
  exact this

theorem foldl_depth {con : Nat → Sur} : ∀ (w : List Nat) {e : Re Sur}, e.depth ≤ 1 → (w.foldl (fun e b => .cat e (.one (con b))) e).depth ≤ 1
  | [], _, h => h
  | b :: w, e, h => by
    rw [List.foldl_cons]
    refine foldl_depth w ?_
    simp only [Re.depth]
    omega

/-- A text of 1 to 96 characters without special meaning is compiled, and searching for it finds its first
occurrence, or answers that there is none. -/
theorem literal_found {w : List Nat} (hne : w ≠ []) (hw : w.length ≤ 96) (hpl : ∀ c ∈ w, Spec.plain c = true ∧ c < 0x110000) (hb : w.length ≤ bytes)
    (hU : E.grp = grpOf U) (hin : Input E cs pre rest) (hsoft : Soft E) (hk : k ≤ cs.length) :
    ∃ P, regcomp false dot bytes w = .ok (P, 0) ∧
      ((∃ x i, exec P E false (off pre cs k) true = some (1, some x) ∧ k ≤ i ∧ w <+: cs.drop i ∧ x.start = off pre cs i ∧ x.stop = off pre cs (i + w.length) ∧
        ∀ i', k ≤ i' → w <+: cs.drop i' → i ≤ i') ∨
      ∃ o, exec P E false (off pre cs k) true = some (0, o) ∧ ∀ i, k ≤ i → ¬ w <+: cs.drop i) := by
  cases w with
  | nil => exact absurd rfl hne
  | cons a w =>
    obtain ⟨P, hP⟩ := pattern_compiles (dot := dot) (spells_chr hpl) (by
      rw [List.filter_eq_nil_iff.2]
      · simp
      · intro t ht
        obtain ⟨c, -, rfl⟩ := List.mem_map.1 ht
        simp [isCls]) hb (word_G (con := Sur.chr) a w) (by have := foldl_depth (con := Sur.chr) w (e := .one (.chr a)) (by simp [Re.depth]); unfold word; omega) (by omega)
    exact ⟨P, hP, literal_search hne hw hpl hP hU hin hsoft hk⟩

/-- The same for quoted text, `\Q..\E`, with any characters except the backslash. -/
theorem quoted_found {w : List Nat} (hne : w ≠ []) (hw : w.length ≤ 96) (h0 : 0 ∉ w) (h92 : 92 ∉ w) (hlt : ∀ c ∈ w, c < 0x110000) (hb : w.length + 4 ≤ bytes)
    (hU : E.grp = grpOf U) (hin : Input E cs pre rest) (hsoft : Soft E) (hk : k ≤ cs.length) :
    ∃ P, regcomp false dot bytes ([92, 81] ++ w ++ [92, 69]) = .ok (P, 0) ∧
      ((∃ x i, exec P E false (off pre cs k) true = some (1, some x) ∧ k ≤ i ∧ w <+: cs.drop i ∧ x.start = off pre cs i ∧ x.stop = off pre cs (i + w.length) ∧
        ∀ i', k ≤ i' → w <+: cs.drop i' → i ≤ i') ∨
      ∃ o, exec P E false (off pre cs k) true = some (0, o) ∧ ∀ i, k ≤ i → ¬ w <+: cs.drop i) := by
  have hs := Spells.quote (ic := false) h0 h92 hlt .nil
  rw [List.append_nil, List.append_nil] at hs
  cases w with
  | nil => exact absurd rfl hne
  | cons a w =>
    obtain ⟨P, hP⟩ := pattern_compiles (dot := dot) (bytes := bytes) hs (by
      rw [List.filter_eq_nil_iff.2]
      · simp
      · intro t ht
        obtain ⟨c, -, rfl⟩ := List.mem_map.1 ht
        simp [isCls]) (by simp only [List.length_append, List.length_cons, List.length_nil] at hb ⊢; omega) (word_G (con := Sur.lit) a w)
      (by have := foldl_depth (con := Sur.lit) w (e := .one (.lit a)) (by simp [Re.depth]); unfold word; omega) (by omega)
    exact ⟨P, hP, quoted_search hne hw h0 h92 hlt hP hU hin hsoft hk⟩

end

/-! ### cases, and the limits -/

/-- `[a-c\t]+\.(\d|\Q*\E)` has at most three pending operators. -/
example : demoRe.depth = 3 ∧ ∃ P, regcomp false false 20 demo = .ok (P, 1) :=
  ⟨by decide, pattern_compiles demo_spells (by decide) (by decide) demo_grammar (by decide) (by decide)⟩

/-- The number of groups, where a pattern is compiled. -/
def groupsOf (pat : List Nat) : Option (Option Nat) :=
  match regcomp false false pat.length pat with
  | .ub => none
  | .err _ => some none
  | .ok (_, n) => some (some n)

/-- 19 groups inside each other are compiled, 20 are too many. -/
theorem nesting_limit : groupsOf (List.replicate 19 40 ++ 97 :: List.replicate 19 41) = some (some 19) ∧
    groupsOf (List.replicate 20 40 ++ 97 :: List.replicate 20 41) = some none := by decide +kernel

/-- 31 groups are compiled, 32 are too many. -/
theorem group_limit : groupsOf (List.replicate 31 [40, 97, 41]).flatten = some (some 31) ∧
    groupsOf (List.replicate 32 [40, 97, 41]).flatten = some none := by decide +kernel

end Verif.Regex
