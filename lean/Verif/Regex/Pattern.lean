import Verif.Regex.Class
import Verif.Regex.Accept
import Verif.Regex.LexSafe
import Verif.Regex.Props
/- From the symbols of a program to the symbols of a pattern. -/
namespace Verif.Regex
open Spec
open Verif.Utf8 (casefold)

theorem G_map {α β : Type} (f : α → β) {lv n n' : Nat} {ts : List (Tok α)} {e : Re α} (h : G lv n ts e n') : G lv n (ts.map (Tok.map f)) (e.map f) n' := by
  induction h with
  | one => exact .one
  | grp _ ih => simp only [List.map_cons, List.map_append, List.map_nil, Tok.map]; exact .grp ih
  | star _ ih => simp only [List.map_cons, List.map_append, List.map_nil, Tok.map]; exact .star ih
  | plus _ ih => simp only [List.map_cons, List.map_append, List.map_nil, Tok.map]; exact .plus ih
  | opt _ ih => simp only [List.map_cons, List.map_append, List.map_nil, Tok.map]; exact .opt ih
  | item _ ih => exact .item ih
  | cat _ _ ih ih' => rw [List.map_append]; exact .cat ih ih'
  | seq _ ih => exact .seq ih
  | alt _ _ ih ih' => simp only [List.map_append, List.map_cons, Tok.map]; exact .alt ih ih'

theorem tok_inv {α β : Type} {f : α → β} {t : Tok α} : (t.map f = .lpar → t = .lpar) ∧ (t.map f = .rpar → t = .rpar) ∧ (t.map f = .bar → t = .bar) ∧ (t.map f = .star → t = .star) ∧
    (t.map f = .plus → t = .plus) ∧ (t.map f = .opt → t = .opt) ∧ ∀ b, t.map f = .one b → ∃ a, t = .one a ∧ b = f a := by
  cases t <;> refine ⟨?_, ?_, ?_, ?_, ?_, ?_, ?_⟩ <;> intros <;> first | rfl | (rename_i h; cases h; done) | (rename_i h; cases h; exact ⟨_, rfl, rfl⟩)

theorem G_unmap {α β : Type} (f : α → β) {lv n n' : Nat} {us : List (Tok β)} {e' : Re β} (h : G lv n us e' n') : ∀ ts : List (Tok α), us = ts.map (Tok.map f) → ∃ e, e' = e.map f ∧ G lv n ts e n' := by
  have last : ∀ {us : List (Tok β)} {x : Tok β} {ts : List (Tok α)}, us ++ [x] = ts.map (Tok.map f) → ∃ vs y, ts = vs ++ [y] ∧ us = vs.map (Tok.map f) ∧ y.map f = x := by
    intro us x ts h
    obtain ⟨vs, w, rfl, h1, h2⟩ := List.map_eq_append_iff.1 h.symm
    obtain ⟨y, t, rfl, h3, h4⟩ := List.map_eq_cons_iff.1 h2
    rw [List.map_eq_nil_iff] at h4
    subst h4
    exact ⟨vs, y, rfl, h1.symm, h3⟩
  induction h with
  | one =>
    intro ts h
    obtain ⟨y, t, rfl, h3, h4⟩ := List.map_eq_cons_iff.1 h.symm
    rw [List.map_eq_nil_iff] at h4
    subst h4
    obtain ⟨a, rfl, rfl⟩ := tok_inv.2.2.2.2.2.2 _ h3
    exact ⟨.one a, rfl, .one⟩
  | grp _ ih =>
    intro ts h
    obtain ⟨y, t, rfl, h3, h4⟩ := List.map_eq_cons_iff.1 h.symm
    obtain ⟨vs, z, rfl, h5, h6⟩ := last h4.symm
    obtain ⟨e, rfl, he⟩ := ih vs h5
    obtain rfl := tok_inv.1 h3
    obtain rfl := tok_inv.2.1 h6
    exact ⟨.grp _ e, rfl, .grp he⟩
  | star _ ih =>
    intro ts h
    obtain ⟨vs, z, rfl, h5, h6⟩ := last h
    obtain ⟨e, rfl, he⟩ := ih vs h5
    obtain rfl := tok_inv.2.2.2.1 h6
    exact ⟨.star e, rfl, .star he⟩
  | plus _ ih =>
    intro ts h
    obtain ⟨vs, z, rfl, h5, h6⟩ := last h
    obtain ⟨e, rfl, he⟩ := ih vs h5
    obtain rfl := tok_inv.2.2.2.2.1 h6
    exact ⟨.plus e, rfl, .plus he⟩
  | opt _ ih =>
    intro ts h
    obtain ⟨vs, z, rfl, h5, h6⟩ := last h
    obtain ⟨e, rfl, he⟩ := ih vs h5
    obtain rfl := tok_inv.2.2.2.2.2.1 h6
    exact ⟨.opt e, rfl, .opt he⟩
  | item _ ih => intro ts h; obtain ⟨e, h1, h2⟩ := ih ts h; exact ⟨e, h1, .item h2⟩
  | cat _ _ ih ih' =>
    intro ts h
    obtain ⟨vs, w, rfl, h1, h2⟩ := List.map_eq_append_iff.1 h.symm
    obtain ⟨e, rfl, he⟩ := ih vs h1.symm
    obtain ⟨e', rfl, he'⟩ := ih' w h2.symm
    exact ⟨.cat e e', rfl, .cat he he'⟩
  | seq _ ih => intro ts h; obtain ⟨e, h1, h2⟩ := ih ts h; exact ⟨e, h1, .seq h2⟩
  | alt _ _ ih ih' =>
    intro ts h
    obtain ⟨vs, w, rfl, h1, h2⟩ := List.map_eq_append_iff.1 h.symm
    obtain ⟨y, t, rfl, h3, h4⟩ := List.map_eq_cons_iff.1 h2
    obtain ⟨e, rfl, he⟩ := ih vs h1.symm
    obtain ⟨e', rfl, he'⟩ := ih' t h4.symm
    obtain rfl := tok_inv.2.2.1 h3
    exact ⟨.alt e e', rfl, .alt he he'⟩

/-- All operands have the property. -/
def Ones {α : Type} (p : α → Prop) : Re α → Prop
  | .one o => p o
  | .grp _ e => Ones p e
  | .cat a b => Ones p a ∧ Ones p b
  | .alt a b => Ones p a ∧ Ones p b
  | .star e => Ones p e
  | .plus e => Ones p e
  | .opt e => Ones p e

theorem G_ones {α : Type} {p : α → Prop} {lv n n' : Nat} {ts : List (Tok α)} {e : Re α} (h : G lv n ts e n') : (∀ o, Tok.one o ∈ ts → p o) → Ones p e := by
  induction h with
  | one => intro hp; exact hp _ (by simp)
  | grp _ ih => intro hp; exact ih (fun o ho => hp o (by simp [ho]))
  | star _ ih => intro hp; exact ih (fun o ho => hp o (by simp [ho]))
  | plus _ ih => intro hp; exact ih (fun o ho => hp o (by simp [ho]))
  | opt _ ih => intro hp; exact ih (fun o ho => hp o (by simp [ho]))
  | item _ ih => exact ih
  | cat _ _ ih ih' => intro hp; exact ⟨ih (fun o ho => hp o (by simp [ho])), ih' (fun o ho => hp o (by simp [ho]))⟩
  | seq _ ih => exact ih
  | alt _ _ ih ih' => intro hp; exact ⟨ih (fun o ho => hp o (by simp [ho])), ih' (fun o ho => hp o (by simp [ho]))⟩

theorem parse_unmap {α β : Type} {f : α → β} {R : β → Nat → Nat → Prop} {S : α → Nat → Nat → Prop} {p : α → Prop} (hS : ∀ a, p a → ∀ i j, R (f a) i j → S a i j)
    {e' : Re β} {i j : Nat} {g g' : Groups} (h : Parse R e' i g j g') : ∀ e, e' = e.map f → Ones p e → Parse S e i g j g' := by
  induction h with
  | one h => intro e he hp; cases e <;> cases he; exact .one (hS _ hp _ _ h)
  | grp _ ih => intro e he hp; cases e <;> cases he; exact .grp (ih _ rfl hp)
  | cat _ _ ih ih' => intro e he hp; cases e <;> cases he; exact .cat (ih _ rfl hp.1) (ih' _ rfl hp.2)
  | altL _ ih => intro e he hp; cases e <;> cases he; exact .altL (ih _ rfl hp.1)
  | altR _ ih => intro e he hp; cases e <;> cases he; exact .altR (ih _ rfl hp.2)
  | starNil => intro e he hp; cases e <;> cases he; exact .starNil
  | starCons _ _ ih ih' => intro e he hp; cases e <;> cases he; exact .starCons (ih _ rfl hp) (ih' (.star _) rfl hp)
  | plus _ _ ih ih' => intro e he hp; cases e <;> cases he; exact .plus (ih _ rfl hp) (ih' (.star _) rfl hp)
  | optNil => intro e he hp; cases e <;> cases he; exact .optNil
  | opt _ ih => intro e he hp; cases e <;> cases he; exact .opt (ih _ rfl hp)

theorem matches_map {α β : Type} {f : α → β} {R : β → Nat → Nat → Prop} {S : α → Nat → Nat → Prop} {p : α → Prop} (hS : ∀ a, p a → ∀ i j, S a i j → R (f a) i j)
    {e : Re α} {i j : Nat} (h : Matches S e i j) : Ones p e → Matches R (e.map f) i j := by
  induction h with
  | one h => intro hp; exact .one (hS _ hp _ _ h)
  | grp _ ih => intro hp; exact .grp (ih hp)
  | cat _ _ ih ih' => intro hp; exact .cat (ih hp.1) (ih' hp.2)
  | altL _ ih => intro hp; exact .altL (ih hp.1)
  | altR _ ih => intro hp; exact .altR (ih hp.2)
  | starNil => intro _; exact .starNil
  | starCons _ _ ih ih' => intro hp; exact .starCons (ih hp) (ih' hp)
  | plus _ _ ih ih' => intro hp; exact .plus (ih hp) (ih' hp)
  | optNil => intro _; exact .optNil
  | opt _ ih => intro hp; exact .opt (ih hp)

theorem head_map {α β : Type} {f : α → β} : ∀ e : Re α, (e.map f).head = e.head.map f
  | .one _ => rfl
  | .grp _ _ => rfl
  | .cat a _ => head_map a
  | .alt _ _ => rfl
  | .star _ => rfl
  | .plus e => head_map e
  | .opt _ => rfl

theorem spells_fine {ic : Bool} {s : List Nat} {l : List (Tok Sur)} (h : Spells ic s l) : ∀ a, Tok.one a ∈ l → Sur.fine ic a := by
  induction h with
  | nil => intro a ha; cases ha
  | tok hok _ _ ih =>
    intro a ha
    rcases List.mem_cons.1 ha with h | h
    · exact .inl (hok a h.symm)
    · exact ih a h
  | quote _ _ hw _ ih =>
    intro a ha
    rcases List.mem_append.1 ha with h | h
    · obtain ⟨c, hc, he⟩ := List.mem_map.1 h
      cases he
      exact .inr ⟨c, rfl, hw c hc⟩
    · exact ih a h

theorem spells_length {ic : Bool} {s : List Nat} {l : List (Tok Sur)} (h : Spells ic s l) : l.length ≤ s.length := by
  induction h with
  | nil => simp
  | @tok t s l _ _ _ ih =>
    have : 1 ≤ t.show.length := by
      cases t with
      | one a => cases a <;> simp [Tok.show, Sur.show]
      | _ => simp [Tok.show]
    simp only [List.length_cons, List.length_append]
    omega
  | quote _ _ _ _ ih =>
    simp only [List.length_cons, List.length_append, List.length_map, List.length_nil]
    omega

theorem fine_plain {ic dot : Bool} {a : Sur} (h : Sur.fine ic a) : plainOp ic (opOf ic dot a) = true := by
  cases a with
  | chr | lit | esc | ctl | hex | short | uni => cases ic <;> rfl
  | dot => cases dot <;> rfl
  | mode b =>
    rcases h with h | ⟨_, h, -⟩
    · obtain rfl : b = ic := h
      cases b <;> rfl
    · cases h
  | _ => rfl

theorem one_map {ic dot : Bool} {l : List (Tok Sur)} {o : Op} (h : Tok.one o ∈ l.map (Tok.map (opOf ic dot))) : ∃ a, Tok.one a ∈ l ∧ o = opOf ic dot a := by
  obtain ⟨t, h1, h2⟩ := List.mem_map.1 h
  obtain ⟨a, rfl, h3⟩ := tok_inv.2.2.2.2.2.2 _ h2
  exact ⟨a, h1, h3⟩

theorem spells_plain {ic dot : Bool} {s : List Nat} {l : List (Tok Sur)} (h : Spells ic s l) : ∀ o, Tok.one o ∈ l.map (Tok.map (opOf ic dot)) → plainOp ic o = true := by
  intro o ho
  obtain ⟨a, ha, rfl⟩ := one_map ho
  exact fine_plain (spells_fine h a ha)

theorem opOf_bol {ic dot : Bool} {a : Sur} (h : opOf ic dot a = .bol) : a = .bol := by
  cases a <;> simp only [opOf] at h <;> first | rfl | (split at h <;> cases h; done) | (cases h; done)

theorem opOf_eoz {ic dot : Bool} {a : Sur} (h : opOf ic dot a = .eoz) : a = .eoz := by
  cases a <;> simp only [opOf] at h <;> first | rfl | (split at h <;> cases h; done) | (cases h; done)

theorem opOf_wb {ic dot : Bool} {a : Sur} (h : opOf ic dot a = .wbound) : a = .wb := by
  cases a <;> simp only [opOf] at h <;> first | rfl | (split at h <;> cases h; done) | (cases h; done)

theorem wb_map {ic dot : Bool} {l : List (Tok Sur)} {X : Prop} (h : Tok.one Sur.wb ∈ l → X) (hm : Tok.one Op.wbound ∈ l.map (Tok.map (opOf ic dot))) : X := by
  obtain ⟨a, ha, he⟩ := one_map hm
  exact h (opOf_wb he.symm ▸ ha)

end Verif.Regex
