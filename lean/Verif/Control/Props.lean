import Verif.Control.Spec
import Mathlib.Tactic.Common
/- C130 (scopes), C131 (matching of sum types), C132 (loops over maps and lists). -/
namespace Verif.Control
open Spec

variable {σ : Type}

theorem once_eq (body : Stmt σ) (s : σ) : once body s = (body s).map settle := by
  simp only [once, local', forC, beside, Option.bind_some, if_true, Option.map_eq_map]
  cases h : body s with
  | none => rfl
  | some e => obtain ⟨o, t⟩ := e; cases o <;> rfl

/-! ### C130 -/

/-- C130. `c_with` acquires, and if the condition holds runs its body and releases; the variables of
the macro are not visible in the result. -/
theorem with_scope (init : σ → Option σ) (cond : σ → Bool) (deinit : σ → Option σ) (body : Stmt σ) (s : σ) :
    cWith init cond deinit body s = scope init cond deinit body s := by
  simp only [cWith, local', forC, scope, beside]
  cases hi : init s with
  | none => simp [hi]
  | some t =>
    by_cases hc : cond t = true
    · cases hb : body t with
      | none => simp [hi, hc, hb]
      | some e =>
        obtain ⟨o, u⟩ := e
        cases o <;> cases hd : deinit u <;> simp [hi, hc, hb, hd]
    · simp [hi, hc]

/-- C130. `c_defer` is a scope that acquires nothing. -/
theorem defer_scope (deinit : σ → Option σ) (body : Stmt σ) (s : σ) :
    cDefer deinit body s = scope some (fun _ => true) deinit body s := by
  simp only [cDefer, local', forC, scope, beside]
  cases hb : body s with
  | none => simp [hb]
  | some e =>
    obtain ⟨o, u⟩ := e
    cases o <;> cases hd : deinit u <;> simp [hb, hd]

example : cDefer (fun n : Nat => some (n * 10)) (fun n => some (.cont, n + 1)) 1 = some (.norm, 20) := by decide

/-- C130 (partial: the body does not `break` or `return`). Nested scopes of any depth release exactly the
resources they have acquired, each once, in the opposite order, also if acquiring one of them fails:
then the body is not run and the failed one is not released. -/
theorem nested_scopes_partial {ρ : Type} (ok : ρ → Bool) (body : Stmt (List (Ev ρ)))
    (hb : ∀ l, body l = some (.norm, l ++ [.work]) ∨ body l = some (.cont, l ++ [.work])) :
    ∀ (rs : List ρ) (l : List (Ev ρ)), ∃ o, (o = .norm ∨ o = .cont) ∧ nest ok body rs l = some (o, l ++
      (let good := rs.takeWhile ok
       good.map .acquired ++
        (match rs.drop good.length with
          | [] => [.work]
          | r :: _ => [.acquired r]) ++
        good.reverse.map .released)) := by
  intro rs
  induction rs with
  | nil =>
    intro l
    rcases hb l with h | h
    · exact ⟨.norm, Or.inl rfl, by simp [nest, h]⟩
    · exact ⟨.cont, Or.inr rfl, by simp [nest, h]⟩
  | cons r rs ih =>
    intro l
    refine ⟨.norm, Or.inl rfl, ?_⟩
    rw [nest, with_scope, scope]
    simp only [Option.bind_some]
    by_cases h : ok r = true
    · obtain ⟨o, ho, e⟩ := ih (l ++ [.acquired r])
      rw [if_pos h, e]
      rcases ho with rfl | rfl <;>
        simp [List.takeWhile_cons, h, List.append_assoc]
    · rw [if_neg h]
      simp [List.takeWhile_cons, h]

example : nest (fun n : Nat => n != 3) (fun l => some (.cont, l ++ [.work])) [1, 2] [] =
    some (.norm, [.acquired 1, .acquired 2, .work, .released 2, .released 1]) := by decide

example : nest (fun n : Nat => n != 3) (fun l => some (.cont, l ++ [.work])) [1, 3, 2] [] =
    some (.norm, [.acquired 1, .acquired 3, .released 1]) := by decide

/-- C130, refutation: a body that ends by `break` or `return` leaves the innermost scope without
releasing its resource; after a `break` the scopes around it are closed as usual, after a `return` no
scope is. -/
theorem break_leaks {ρ : Type} (r q : ρ) (l : List (Ev ρ)) :
    nest (fun _ => true) (fun l => some (.brk, l)) [r, q] l =
      some (.norm, l ++ [.acquired r, .acquired q, .released r]) ∧
    nest (fun _ => true) (fun l => some (.ret, l)) [r, q] l = some (.ret, l ++ [.acquired r, .acquired q]) := by
  simp [nest, with_scope, scope]

/-! ### C131 -/

/-- the statements of the arms, from one that has been reached by its label. -/
theorem run_expand : ∀ (l : List (Arm σ)) (a : Arm σ) (s : σ),
    (runItems ((a.expand.drop 2) ++ l.flatMap Arm.expand) s).map settle =
      (runGroup (group (a :: l)) s).map settle := by
  intro l
  induction l with
  | nil =>
    intro a s
    cases a <;> simp only [Arm.expand, List.drop_succ_cons, List.drop_zero, List.flatMap_nil, List.append_nil,
      runItems, group, List.takeWhile_nil, runGroup, bodyOf, once_eq]
    all_goals
      cases hb : (‹Stmt σ›) s with
      | none => rfl
      | some e => obtain ⟨o, u⟩ := e; cases o <;> rfl
  | cons b l ih =>
    intro a s
    -- what follows the arm `a`
    have hrest : ∀ u : σ, (runItems ((b :: l).flatMap Arm.expand) u).map settle =
        (runGroup ((b :: l).takeWhile isOr) u).map settle := by
      intro u
      have := ih b u
      cases b with
      | orIs t c =>
        simp only [Arm.expand, List.drop_succ_cons, List.drop_zero, group] at this
        simp only [List.flatMap_cons, Arm.expand, List.cons_append, List.nil_append, runItems, skip,
          Option.bind_some, if_true, List.takeWhile_cons]
        exact this
      | is1 t c => rfl
      | is2 t c => rfl
      | other c => rfl
    cases a <;> simp only [Arm.expand, List.drop_succ_cons, List.drop_zero, List.cons_append, List.nil_append,
      runItems, group, runGroup, bodyOf, once_eq]
    all_goals
      cases hb : (‹Stmt σ›) s with
      | none => rfl
      | some e =>
        obtain ⟨o, u⟩ := e
        cases o <;> simp only [Option.bind_some, Option.map_some, settle, reduceCtorEq, if_true, if_false, hrest]

theorem dw_case {t : Int} (l : List (Item σ)) (u : Int) (b c : Stmt σ) (h : u ≠ t) :
    (.stmt b :: .case u :: .stmt c :: l).dropWhile (fun i : Item σ => !i.isCase t) =
      l.dropWhile (fun i => !i.isCase t) := by
  rw [List.dropWhile_cons, if_pos (by rfl), List.dropWhile_cons,
    if_pos (by show (!(u == t)) = true; simpa using h), List.dropWhile_cons, if_pos (by rfl)]

theorem dw_hit (t : Int) (l : List (Item σ)) (b : Stmt σ) :
    (.stmt b :: .case t :: l).dropWhile (fun i : Item σ => !i.isCase t) = .case t :: l := by
  rw [List.dropWhile_cons, if_pos (by rfl), List.dropWhile_cons,
    if_neg (by show ¬ (!(t == t)) = true; simp)]

theorem drop_case (t : Int) : ∀ (arms : List (Arm σ)),
    (arms.flatMap Arm.expand).dropWhile (fun i => !i.isCase t) =
      match arms.dropWhile (fun a => tagOf a != some t) with
      | [] => []
      | a :: l => .case t :: (a.expand.drop 2 ++ l.flatMap Arm.expand)
  | [] => rfl
  | a :: l => by
    have ih := drop_case t l
    rw [List.flatMap_cons]
    cases a with
    | other b =>
      rw [List.dropWhile_cons (p := fun a : Arm σ => tagOf a != some t), if_pos (by rfl), ← ih]
      rfl
    | is1 u b | is2 u b | orIs u b =>
      by_cases h : u = t
      · subst h
        rw [List.dropWhile_cons (p := fun a : Arm σ => tagOf a != some u), if_neg (by simp [tagOf])]
        exact dw_hit _ _ _
      · rw [List.dropWhile_cons (p := fun a : Arm σ => tagOf a != some t), if_pos (by simpa [tagOf] using h), ← ih]
        exact dw_case _ _ _ _ h

theorem drop_dflt : ∀ (arms : List (Arm σ)),
    (arms.flatMap Arm.expand).dropWhile (fun i => !i.isDflt) =
      match arms.dropWhile (fun a => tagOf a != none) with
      | [] => []
      | a :: l => .dflt :: (a.expand.drop 2 ++ l.flatMap Arm.expand)
  | [] => rfl
  | a :: l => by
    have ih := drop_dflt l
    rw [List.flatMap_cons]
    cases a with
    | other b => rfl
    | is1 u b | is2 u b | orIs u b =>
      rw [List.dropWhile_cons (p := fun a : Arm σ => tagOf a != none), if_pos (by rfl), ← ih]
      rfl

/-- C131. `c_when` runs the bodies of the alternatives joined to the arm with the tag of the value, or
to `c_otherwise` if there is none, or nothing; `break` and `continue` inside do not leave the statement
around it, `return` does. -/
theorem when_groups (tag : σ → Int) (arms : List (Arm σ)) (s : σ) :
    cWhen tag arms s = (runGroup (group (armsFrom arms (tag s))) s).map settle := by
  have hs : ∀ r : Option (Out × σ),
      (r.map fun e => ((if e.1 = .brk then .norm else e.1, e.2) : Out × σ)).map settle = r.map settle := by
    intro r
    cases r with
    | none => rfl
    | some e => obtain ⟨o, u⟩ := e; cases o <;> rfl
  rw [cWhen, once_eq, switchC, hs, drop_case, drop_dflt, armsFrom]
  cases h : arms.dropWhile (fun a => tagOf a != some (tag s)) with
  | cons a l => exact run_expand l a s
  | nil =>
    simp only
    cases h2 : arms.dropWhile (fun a => tagOf a != none) with
    | cons a l => exact run_expand l a s
    | nil => rfl

/-- C131, for plain matching. Exactly the body of the arm for the tag of the value runs, once; if there is
none, nothing happens. -/
theorem when_dispatch (tag : σ → Int) (arms : List (Arm σ)) (hp : Plain arms) (s : σ) :
    cWhen tag arms s = match armFor arms (tag s) with
      | some a => (bodyOf a s).map settle
      | none => some (.norm, s) := by
  have find_drop : ∀ (p : Arm σ → Bool) (l : List (Arm σ)), l.find? p = (l.dropWhile fun a => !p a).head? := by
    intro p l
    induction l with
    | nil => rfl
    | cons a l ih => rw [List.find?_cons, List.dropWhile_cons]; cases h : p a <;> simp [h, ih]
  have grp : ∀ (a : Arm σ) (l : List (Arm σ)), (∀ b ∈ l, ∀ t c, b ≠ .orIs t c) →
      (runGroup (group (a :: l)) s).map settle = (bodyOf a s).map settle := by
    intro a l hl
    have : l.takeWhile isOr = [] := by
      cases l with
      | nil => rfl
      | cons b l =>
        have := hl b (by simp)
        cases b with
        | orIs t c => exact absurd rfl (this t c)
        | _ => rfl
    rw [group, this, runGroup]
    cases hb : bodyOf a s with
    | none => rfl
    | some e => obtain ⟨o, u⟩ := e; cases a <;> cases o <;> rfl
  rw [when_groups, armsFrom, armFor, find_drop, find_drop]
  have sub : ∀ (q : Arm σ → Bool) (a : Arm σ) (l : List (Arm σ)), arms.dropWhile q = a :: l →
      ∀ b ∈ l, ∀ t c, b ≠ .orIs t c := by
    intro q a l e b hb
    exact hp b ((List.dropWhile_suffix q).subset (by rw [e]; simp [hb]))
  have e1 : (fun a : Arm σ => !(tagOf a == some (tag s))) = fun a => tagOf a != some (tag s) := rfl
  have e2 : (fun a : Arm σ => !(tagOf a == none)) = fun a => tagOf a != none := rfl
  rw [e1, e2]
  cases h : arms.dropWhile (fun a => tagOf a != some (tag s)) with
  | cons a l => simpa using grp a l (sub _ a l h)
  | nil =>
    cases h2 : arms.dropWhile (fun a => tagOf a != none) with
    | cons a l => simpa using grp a l (sub _ a l h2)
    | nil => rfl

example : cWhen (fun s : Int × Nat => s.1)
    [.is2 1 (fun s => some (.norm, (s.1, 10))), .is1 2 (fun s => some (.brk, (s.1, 20))),
     .other (fun s => some (.norm, (s.1, 30)))] (2, 0) = some (.norm, (2, 20)) := by decide

/-- C131. A variant made with a tag of the sum type is matched by the arm of that tag alone, wherever
it stands among the arms; a zeroed object matches no tag. -/
theorem when_variant (n : Nat) (arms : List (Arm σ)) (hp : Plain arms) (tag : σ → Int) (s : σ) :
    (∀ a ∈ arms, ∀ t, tagOf a = some t → t ∈ tags n) →
    (arms.filterMap tagOf).Nodup →
    (∀ a ∈ arms, tagOf a = some (tag s) → cWhen tag arms s = (bodyOf a s).map settle) ∧
    (tag s = 0 → (∀ a ∈ arms, tagOf a ≠ none) → cWhen tag arms s = some (.norm, s)) := by
  intro ht hn
  refine ⟨fun a ha hta => ?_, fun h0 hno => ?_⟩
  · rw [when_dispatch tag arms hp]
    have : arms.find? (fun b => tagOf b == some (tag s)) = some a := by
      clear hp ht
      induction arms with
      | nil => simp at ha
      | cons b l ih =>
        rw [List.find?_cons]
        by_cases hb : tagOf b = some (tag s)
        · have : a = b := by
            rcases List.mem_cons.1 ha with h | h
            · exact h
            · rw [List.filterMap_cons, hb] at hn
              exact absurd (List.mem_filterMap.2 ⟨a, h, hta⟩) (List.nodup_cons.1 hn).1
          simp [hb, this]
        · have hal : a ∈ l := by
            rcases List.mem_cons.1 ha with h | h
            · exact absurd (h ▸ hta) hb
            · exact h
          have hn' : (l.filterMap tagOf).Nodup := by
            rw [List.filterMap_cons] at hn
            cases h : tagOf b with
            | none => rw [h] at hn; exact hn
            | some x => rw [h] at hn; exact (List.nodup_cons.1 hn).2
          have hb' : (tagOf b == some (tag s)) = false := by simpa using hb
          simp [hb', ih hn' hal]
    rw [armFor, this]; rfl
  · rw [when_dispatch tag arms hp]
    have e1 : arms.find? (fun b => tagOf b == some (tag s)) = none := by
      rw [List.find?_eq_none]
      intro a ha h
      have := ht a ha _ (by simpa using h)
      rw [h0] at this
      simp [tags] at this
      omega
    have e2 : arms.find? (fun b => tagOf b == none) = none := by
      rw [List.find?_eq_none]
      intro a ha h
      exact hno a ha (by simpa using h)
    rw [armFor, e1, e2]; rfl

/-- C131 (partial: `break` and `continue` do not reach a loop around it). `if (c_is(p, Tag, x)) body else
els` runs the body exactly if the value holds the tag, and the other statement exactly if it does not. -/
theorem is_partial (tag : σ → Int) (t : Int) (body els : Stmt σ) (s : σ) :
    cIs tag t body els s = (if tag s = t then body s else els s).map settle := by
  rw [cIs, once_eq]
  by_cases h : tag s = t
  · rw [if_pos h, if_pos h, once_eq]
    cases body s with
    | none => rfl
    | some e => obtain ⟨o, u⟩ := e; cases o <;> rfl
  · rw [if_neg h, if_neg h]

example : cIs (fun s : Int × Nat => s.1) 2 (fun s => some (.norm, (s.1, 5))) skip (2, 0) = some (.norm, (2, 5)) := by
  decide

/-- C131, refutation: a `break` in either branch of `if (c_is(..))` does not end the loop around it: the
loop below, meant to stop at the first element, counts them all. -/
theorem is_swallows_break (l : List Nat) : ∀ (n : Nat), ∃ r,
    forEach (fun _ : Nat => cIs (fun _ : Nat => 1) 1 (fun n => some (.brk, n + 1)) skip) l n = some (.norm, r) ∧
    r = n + l.length := by
  induction l with
  | nil => intro n; exact ⟨n, rfl, rfl⟩
  | cons a l ih =>
    intro n
    obtain ⟨r, e, h⟩ := ih (n + 1)
    refine ⟨r, ?_, by simp only [List.length_cons]; omega⟩
    rw [forEach, is_partial]
    exact e

/-! ### C132 -/

theorem loop_each {ε : Type} (body : ε → Stmt σ) : ∀ (l : List ε) (k : Bool) (f : Nat) (s : σ), l.length < f →
    ∃ g : Option (Out × ((Bool × List ε) × σ)),
      forC (fun s : (Bool × List ε) × σ => some (!s.1.2.isEmpty, s)) (fun s => some ((s.1.1, s.1.2.tail), s.2))
        (fun s => (s.1.2.head?).bind fun e => beside (body e) s) f ((k, l), s) = g ∧
      (g.map fun e => (e.1, e.2.2)) = forEach body l s ∧ ∀ e, g = some e → e.2.1.1 = k ∧ (e.1 = .norm ∨ e.1 = .ret) := by
  intro l
  induction l with
  | nil =>
    intro k f s hf
    cases f with
    | zero => simp at hf
    | succ f => exact ⟨_, rfl, by simp [forC, forEach], by simp [forC]⟩
  | cons a l ih =>
    intro k f s hf
    cases f with
    | zero => simp at hf
    | succ f =>
      refine ⟨_, rfl, ?_, ?_⟩ <;>
        simp only [forC, forEach, Option.bind_some, List.isEmpty_cons, Bool.not_false, if_true, List.head?_cons, beside,
          List.tail_cons]
      · cases hb : body a s with
        | none => rfl
        | some e =>
          obtain ⟨o, u⟩ := e
          obtain ⟨g, e, h1, _⟩ := ih k f u (by simpa using hf)
          cases o <;> simp only [Option.map_some, Option.bind_some]
          · rw [← h1, ← e]; rfl
          · rw [← h1, ← e]; rfl
      · cases hb : body a s with
        | none => simp
        | some e =>
          obtain ⟨o, u⟩ := e
          obtain ⟨g, e, _, h2⟩ := ih k f u (by simpa using hf)
          cases o <;> simp only [Option.map_some, Option.bind_some]
          · intro e' he'; exact h2 e' (e ▸ he')
          · intro e' he'; simp only [Option.some.injEq] at he'; subst he'; exact ⟨rfl, Or.inl rfl⟩
          · intro e' he'; exact h2 e' (e ▸ he')
          · intro e' he'; simp only [Option.some.injEq] at he'; subst he'; exact ⟨rfl, Or.inr rfl⟩

/-- C132. `for (c_each_kv(key, val, Map, map)) body` runs the body once for every entry, in order; a
`break` in the body ends the whole loop although it is made of three, `continue` goes to the next entry. -/
theorem each_kv {ε : Type} (l : List ε) (body : ε → Stmt σ) (s : σ) :
    eachKv l body s = forEach body l s := by
  obtain ⟨g, e, h1, h2⟩ := loop_each body l true (l.length + 1) s (by omega)
  simp only [eachKv, local']
  rw [forC]
  simp only [Option.bind_some, if_true]
  rw [forC]
  simp only [Option.bind_some, if_true]
  rw [e, ← h1]
  cases g with
  | none => rfl
  | some r =>
    obtain ⟨o, ⟨k, m⟩, u⟩ := r
    obtain ⟨_, h4⟩ := h2 _ rfl
    rcases h4 with h4 | h4 <;> (simp only at h4; subst h4)
    · simp [forC]
    · rfl

example : eachKv [1, 2, 3, 4] (fun e n => some (if e = 3 then .brk else .cont, n + e)) 0 = some (.norm, 6) := by
  decide

/-- C132. `c_items` runs the body once for every item in the list, in order; `c_drop` drops each once. -/
theorem items_each {ε : Type} (l : List ε) (body : ε → Stmt σ) (s : σ) :
    items l body s = forEach body l s := by
  have key : ∀ (n i f : Nat) (s : σ), n = l.length - i → n < f → i ≤ l.length →
      (forC (fun s : (Nat × Nat) × σ => some (decide (s.1.2 < l.length), s))
        (fun s => some ((s.1.1 + 1, s.1.2 + 1), s.2))
        (fun s => (l[s.1.1]?).bind fun e => beside (body e) s) f ((i, i), s)).map (fun e => (e.1, e.2.2)) =
      forEach body (l.drop i) s := by
    intro n
    induction n with
    | zero =>
      intro i f s hn hf hi
      cases f with
      | zero => simp at hf
      | succ f =>
        have : i = l.length := by omega
        subst this
        simp [forC, forEach]
    | succ n ih =>
      intro i f s hn hf hi
      cases f with
      | zero => simp at hf
      | succ f =>
        have hlt : i < l.length := by omega
        rw [List.drop_eq_getElem_cons hlt, forC, forEach]
        simp only [Option.bind_some, hlt, decide_true, if_true, List.getElem?_eq_getElem hlt, beside]
        cases hb : body l[i] s with
        | none => rfl
        | some e =>
          obtain ⟨o, u⟩ := e
          have := ih (i + 1) f u (by omega) (by omega) (by omega)
          cases o <;> simp only [Option.map_some, Option.bind_some] <;> first | rfl | exact this
  exact key l.length 0 (l.length + 1) s (by omega) (by omega) (by omega)

/-- C132. `c_drop(C, &a, &b, ...)` drops every listed object once, in order. -/
theorem drop_all {ε : Type} (l : List ε) (drop : ε → σ → Option σ) (s : σ) :
    dropAll l drop s = (l.foldlM (fun s e => drop e s) s).map (Out.norm, ·) := by
  rw [dropAll, items_each]
  induction l generalizing s with
  | nil => rfl
  | cons e l ih =>
    rw [forEach, List.foldlM_cons]
    cases h : drop e s with
    | none => rfl
    | some u => simpa using ih u

example : dropAll [1, 2, 3] (fun e l => some (l ++ [e])) [] = some (.norm, [1, 2, 3]) := by decide

end Verif.Control
