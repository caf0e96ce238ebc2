import Verif.Regex.Unique
import Verif.Regex.Den
import Verif.Regex.Loop
/- Compiler and matcher together. -/
namespace Verif.Regex
open Spec (Tok Re G Parse Groups Matches)

theorem G_all {p : Op → Prop} {lv n n' : Nat} {ts : List (Tok Op)} {e : Re Op} (h : G lv n ts e n') : (∀ o, Tok.one o ∈ ts → p o) → All p e := by
  induction h with
  | one => intro hp; exact hp _ (by simp)
  | grp _ ih => intro hp; exact ih (fun o ho => hp o (by simp [ho]))
  | star _ ih => intro hp; exact ih (fun o ho => hp o (by simp [ho]))
  | plus _ ih => intro hp; exact ih (fun o ho => hp o (by simp [ho]))
  | opt _ ih => intro hp; exact ih (fun o ho => hp o (by simp [ho]))
  | item _ ih => exact ih
  | seq _ ih => exact ih
  | cat _ _ ih1 ih2 => intro hp; exact ⟨ih1 (fun o ho => hp o (by simp [ho])), ih2 (fun o ho => hp o (by simp [ho]))⟩
  | alt _ _ ih1 ih2 => intro hp; exact ⟨ih1 (fun o ho => hp o (by simp [ho])), ih2 (fun o ho => hp o (by simp [ho]))⟩

theorem G_ids {lv n n' : Nat} {ts : List (Tok Op)} {e : Re Op} (h : G lv n ts e n') : n ≤ n' ∧ (∀ k ∈ ids e, n < k ∧ k ≤ n') ∧ Wf e := by
  induction h with
  | one => exact ⟨Nat.le_refl _, by simp [ids], trivial⟩
  | grp _ ih =>
    obtain ⟨h1, h2, h3⟩ := ih
    refine ⟨by omega, fun k hk => ?_, fun hk => ?_, h3⟩
    · rcases List.mem_cons.1 hk with rfl | hk
      · omega
      · have := h2 k hk; omega
    · have := h2 _ hk; omega
  | star _ ih => exact ih
  | plus _ ih => exact ih
  | opt _ ih => exact ih
  | item _ ih => exact ih
  | seq _ ih => exact ih
  | cat _ _ ih1 ih2 =>
    refine ⟨by omega, fun k hk => ?_, ih1.2.2, ih2.2.2⟩
    rcases List.mem_append.1 hk with hk | hk
    · have := ih1.2.1 k hk; omega
    · have := ih2.2.1 k hk; omega
  | alt _ _ ih1 ih2 =>
    refine ⟨by omega, fun k hk => ?_, ih1.2.2, ih2.2.2⟩
    rcases List.mem_append.1 hk with hk | hk
    · have := ih1.2.1 k hk; omega
    · have := ih2.2.1 k hk; omega

theorem frag_ops {h : List Inst} {p : Op → Prop} (p1 : ∀ k, p (.lbra k)) (p2 : ∀ k, p (.rbra k)) (p3 : ∀ k, p (.or k)) (p4 : p .nop) :
    ∀ {e : Re Op} {a b f l : Nat}, Frag h e a b f l → All p e → ∀ i, a ≤ i → i < b → ∃ o, opAt h i = some o ∧ p o
  | .one o, a, b, f, l, hf, hp, i, h1, h2 => by
    obtain ⟨q1, q2, q3, h4⟩ := hf
    have : i = a := by omega
    subst this
    exact ⟨o, h4, hp⟩
  | .grp k e, a, b, f, l, hf, hp, i, i1, i2 => by
    obtain ⟨b', f', l', h1, rfl, rfl, rfl, h5, h6, -⟩ := hf
    by_cases hc : i < l
    · exact frag_ops p1 p2 p3 p4 (e := e) h1 hp i i1 hc
    · by_cases he : i = l
      · subst he; exact ⟨_, h6, p2 _⟩
      · have : i = l + 1 := by omega
        subst this; exact ⟨_, opAt_of h5, p1 _⟩
  | .alt e1 e2, a, b, f, l, hf, hp, i, i1, i2 => by
    obtain ⟨m, b', f1, l1, f2, l2, h1, h2, rfl, rfl, rfl, h5, h6, -⟩ := hf
    by_cases hm : i < m
    · exact frag_ops p1 p2 p3 p4 h1 hp.1 i i1 hm
    · by_cases hc : i < l
      · exact frag_ops p1 p2 p3 p4 h2 hp.2 i (by omega) hc
      · by_cases he : i = l
        · subst he; exact ⟨_, h6, p4⟩
        · have : i = l + 1 := by omega
          subst this; exact ⟨_, opAt_of h5, p3 _⟩
  | .cat e1 e2, a, b, f, l, hf, hp, i, i1, i2 => by
    obtain ⟨m, l1, f2, h1, h2, -⟩ := hf
    by_cases hm : i < m
    · exact frag_ops p1 p2 p3 p4 h1 hp.1 i i1 hm
    · exact frag_ops p1 p2 p3 p4 h2 hp.2 i (by omega) i2
  | .star e, a, b, f, l, hf, hp, i, i1, i2 => by
    obtain ⟨b', f1, l1, h1, rfl, rfl, rfl, h4, -⟩ := hf
    by_cases hc : i < l
    · exact frag_ops p1 p2 p3 p4 (e := e) h1 hp i i1 hc
    · have : i = l := by omega
      subst this; exact ⟨_, h4, p3 _⟩
  | .plus e, a, b, f, l, hf, hp, i, i1, i2 => by
    obtain ⟨b', l1, h1, rfl, rfl, h4, -⟩ := hf
    by_cases hc : i < l
    · exact frag_ops p1 p2 p3 p4 (e := e) h1 hp i i1 hc
    · have : i = l := by omega
      subst this; exact ⟨_, h4, p3 _⟩
  | .opt e, a, b, f, l, hf, hp, i, i1, i2 => by
    obtain ⟨b', f1, l1, h1, rfl, rfl, rfl, h4, h5, -⟩ := hf
    by_cases hc : i < f
    · exact frag_ops p1 p2 p3 p4 (e := e) h1 hp i i1 hc
    · by_cases he : i = f
      · subst he; exact ⟨_, opAt_of h4, p3 _⟩
      · have : i = f + 1 := by omega
        subst this; exact ⟨_, h5, p4⟩

/-- What the compiler leaves on the stack, before the optimisation. -/
theorem pre_frag {cap : Nat} {ts : List (Tok Op)} {s1 s3 : PS} {o2 o4 : List (Ator × Nat)} {x2 x4 : Heap} {nd : Node} {nds : List Node}
    (e1 : tokens cap ts ps0 = .ok s1) (e2 : evaluntil cap 1 s1.ators s1.x = .ok (o2, x2)) (e3 : operand cap { s1 with x := x2, ators := o2 } .fin = .ok s3)
    (e4 : evaluntil cap 1 s3.ators s3.x = .ok (o4, x4)) (hnb : s3.nbra = 0) (hands : x4.ands = nd :: nds) :
    ∃ e, Frag x4.h e 0 x4.h.length nd.first nd.last ∧
      ((ts = [] ∧ s3.cursub = 0 ∧ e = .one .fin) ∨ ∃ A e', G 0 0 ts e' s3.cursub ∧ Eqv A e' ∧ e = .cat A (.one .fin)) := by
  obtain ⟨p1, a1, hs1⟩ := tokens_sim (p := pa0) ⟨.nil, rfl, rfl, rfl, rfl⟩ e1
  obtain ⟨es2, a2, r2⟩ := eval_sim hs1.rep e2
  have hs2 : Sim { s1 with x := x2, ators := o2 } { p1 with es := es2, ators := o2 } := ⟨r2, rfl, hs1.cursub, hs1.lastand, hs1.nbra⟩
  obtain ⟨p3, a3, hs3⟩ := operand_sim hs2 e3
  obtain ⟨es4, a4, r4⟩ := eval_sim hs3.rep e4
  rw [hands] at r4
  have hfin : finA p1 = some (es4, 0, p3.cursub) := by
    unfold finA
    rw [hs1.ators, a2, Option.bind_some]
    simp only
    rw [a3, Option.bind_some, hs3.ators, a4, hs3.nbra, hnb]
    rfl
  obtain ⟨a, e, es', rfl, hf, hr⟩ := r4.inv
  rw [← hs3.cursub]
  have hne : e :: es' ≠ [] := by simp
  have := fin_shape a1 hfin hne
  have h0 : es' = [] := by
    rcases this with ⟨-, -, h⟩ | ⟨A, e', -, -, h⟩
    · simpa using (List.cons.inj h).2
    · simpa using (List.cons.inj h).2
  subst h0
  have ha : a = 0 := by
    cases hr
    rfl
  subst ha
  refine ⟨e, hf, ?_⟩
  rcases this with ⟨h1, h2, h⟩ | ⟨A, e', h1, h2, h⟩
  · exact .inl ⟨h1, h2, (List.cons.inj h).1⟩
  · exact .inr ⟨A, e', h1, h2, (List.cons.inj h).1⟩

theorem compile_frag {cap n : Nat} {ic : Bool} {ts : List (Tok Op)} {P : Prog} (h : compile cap ic ts = .ok (P, n)) :
    ∃ hp e l, Frag hp e 0 hp.length P.start l ∧ optimize hp (hp.length + 1) 0 = some P.insts ∧ P.icase = ic ∧
      ((ts = [] ∧ n = 0 ∧ e = .one .fin) ∨ ∃ A e', G 0 0 ts e' n ∧ Eqv A e' ∧ e = .cat A (.one .fin)) := by
  unfold compile at h
  obtain ⟨s1, e1, h⟩ := bind_ok h
  obtain ⟨⟨o2, x2⟩, e2, h⟩ := bind_ok h
  obtain ⟨s3, e3, h⟩ := bind_ok h
  obtain ⟨⟨o4, x4⟩, e4, h⟩ := bind_ok h
  simp only at h
  by_cases hnb : s3.nbra ≠ 0
  · rw [if_pos hnb] at h; cases h
  · rw [if_neg hnb] at h
    cases hands : x4.ands with
    | nil => rw [hands] at h; cases h
    | cons nd nds =>
      rw [hands] at h
      simp only at h
      cases hopt : optimize x4.h (x4.h.length + 1) 0 with
      | none => rw [hopt] at h; cases h
      | some g =>
        rw [hopt] at h
        simp only [R.ok.injEq, Prod.mk.injEq] at h
        obtain ⟨rfl, rfl⟩ := h
        obtain ⟨e, hf, hcase⟩ := pre_frag e1 e2 e3 e4 (by omega) hands
        exact ⟨x4.h, e, nd.last, hf, hopt, rfl, hcase⟩

/-- Matching without and with groups. -/
theorem parse_matches {α : Type} {R : α → Nat → Nat → Prop} {e : Re α} {i j : Nat} {g g' : Groups} (h : Parse R e i g j g') : Matches R e i j := by
  induction h with
  | one h => exact .one h
  | grp _ ih => exact .grp ih
  | cat _ _ ih1 ih2 => exact .cat ih1 ih2
  | altL _ ih => exact .altL ih
  | altR _ ih => exact .altR ih
  | starNil => exact .starNil
  | starCons _ _ ih1 ih2 => exact .starCons ih1 ih2
  | plus _ _ ih1 ih2 => exact .plus ih1 ih2
  | optNil => exact .optNil
  | opt _ ih => exact .opt ih

theorem matches_parse {α : Type} {R : α → Nat → Nat → Prop} {e : Re α} {i j : Nat} (h : Matches R e i j) : ∀ g, ∃ g', Parse R e i g j g' := by
  induction h with
  | one h => intro g; exact ⟨g, .one h⟩
  | grp _ ih => intro g; obtain ⟨g', h⟩ := ih g; exact ⟨_, .grp h⟩
  | cat _ _ ih1 ih2 => intro g; obtain ⟨g', h⟩ := ih1 g; obtain ⟨g'', h'⟩ := ih2 g'; exact ⟨_, .cat h h'⟩
  | altL _ ih => intro g; obtain ⟨g', h⟩ := ih g; exact ⟨_, .altL h⟩
  | altR _ ih => intro g; obtain ⟨g', h⟩ := ih g; exact ⟨_, .altR h⟩
  | starNil => intro g; exact ⟨g, .starNil⟩
  | starCons _ _ ih1 ih2 => intro g; obtain ⟨g', h⟩ := ih1 g; obtain ⟨g'', h'⟩ := ih2 g'; exact ⟨_, .starCons h h'⟩
  | plus _ _ ih1 ih2 => intro g; obtain ⟨g', h⟩ := ih1 g; obtain ⟨g'', h'⟩ := ih2 g'; exact ⟨_, .plus h h'⟩
  | optNil => intro g; exact ⟨g, .optNil⟩
  | opt _ ih => intro g; obtain ⟨g', h⟩ := ih g; exact ⟨_, .opt h⟩

theorem Eqv.matches {e e' : Re Op} (h : Eqv e e') {R : Op → Nat → Nat → Prop} {i j : Nat} : Matches R e i j ↔ Matches R e' i j := by
  constructor
  · intro hm
    obtain ⟨g', hp⟩ := matches_parse hm (fun _ => none)
    exact parse_matches ((h.parse R _ _ _ _).1 hp)
  · intro hm
    obtain ⟨g', hp⟩ := matches_parse hm (fun _ => none)
    exact parse_matches ((h.parse R _ _ _ _).2 hp)

/-- Symbols whose operands are operands. -/
def Atoms (ts : List (Tok Op)) : Prop := ∀ o, Tok.one o ∈ ts → atom o = true

/-- The program means the expression. -/
structure Means (P : Prog) (e : Re Op) : Prop where
  sound : ∀ E N i σ j τ, Fut P E N P.start i σ j τ → τ.start = σ.start ∧ ∀ g, Agree [] σ g → ∃ g', Parse (Hits P E) e i g j g' ∧ Agree [] τ g'
  complete : ∀ E i j r n, Matches (Hits P E) e i j → rune E.m j = some (r, n) → ∃ N, F P E N P.start i j

theorem compile_means {cap n : Nat} {ic : Bool} {ts : List (Tok Op)} {P : Prog} (hat : Atoms ts) (h : compile cap ic ts = .ok (P, n)) :
    P.icase = ic ∧
    (∀ p : Op → Prop, (∀ k, p (.lbra k)) → (∀ k, p (.rbra k)) → (∀ k, p (.or k)) → p .nop → p .fin → (∀ o, Tok.one o ∈ ts → p o) → ∀ I ∈ P.insts, p I.op) ∧
    ((ts = [] ∧ n = 0 ∧ opAt P.insts P.start = some .fin) ∨ ∃ e, G 0 0 ts e n ∧ Means P e) := by
  obtain ⟨hp, e, l, hf, hopt, hic, hcase⟩ := compile_frag h
  obtain ⟨k', hO, -, hfin⟩ := optimize_inv ⟨rfl, fun _ => rfl, fun _ _ => rfl, fun i hi => by omega⟩ hopt
  refine ⟨hic, ?_, ?_⟩
  · intro p p1 p2 p3 p4 p5 hts I hI
    obtain ⟨i, hi, rfl⟩ := List.mem_iff_getElem.1 hI
    have hall : All p e := by
      rcases hcase with ⟨-, -, rfl⟩ | ⟨A, e', hg, hq, rfl⟩
      · exact p5
      · exact ⟨(hq.all p).2 (G_all hg hts), p5⟩
    obtain ⟨o, h1, h2⟩ := frag_ops p1 p2 p3 p4 hf hall i (by omega) (by rw [← hO.len]; exact hi)
    rw [← hO.op, opAt_of (List.getElem?_eq_getElem hi)] at h1
    cases h1
    exact h2
  · rcases hcase with ⟨h1, h2, rfl⟩ | ⟨A, e', hg, hq, rfl⟩
    · obtain ⟨q1, q2, q3, q4⟩ := hf
      exact .inl ⟨h1, h2, by rw [hO.op, q1]; exact q4⟩
    · right
      refine ⟨e', hg, ?_⟩
      obtain ⟨m, l1, f2, g1, ⟨rfl, rfl, g3, g4⟩, g5⟩ := hf
      have hall := (hq.all _).2 (G_all hg hat)
      have hk : l ≤ k' := by
        by_contra hlt
        obtain ⟨o, q1, q2⟩ := frag_ops (p := fun o => o ≠ .fin) (by simp) (by simp) (by simp) (by simp) g1
          ((hq.all _).2 (G_all hg (fun o ho e => by have := hat o ho; subst e; cases this))) k' (by omega) (by omega)
        rw [hfin] at q1
        cases q1
        exact q2 rfl
      have hl : Linked hp P l := by
        refine ⟨hO.op, fun i n K hi hn hK => ?_⟩
        obtain ⟨n', K', q1, q2, q3⟩ := hO.done i (by omega)
        rw [hn] at q1
        cases q1
        rw [q3, q2.unique hK]
      have hsk : Sk hp l l := .here g4 (by simp)
      constructor
      · intro E N i σ j τ hF
        obtain ⟨i1, σ1, M, -, r1, hF1⟩ := frag_sound (E := E) hl hall (hq.wf.2 (G_ids hg).2.2) g1 (Nat.le_refl _) g5 hsk N i σ j τ hF
        obtain ⟨rfl, rfl⟩ := fut_fin ((hl.op _).trans g4) hF1
        refine ⟨r1.start, fun g ha => ?_⟩
        obtain ⟨g', q1, q2⟩ := r1.parse [] g (by simp) ha
        exact ⟨g', (hq.parse _ _ _ _ _).1 q1, q2⟩
      · intro E i j r n hm hr
        refine frag_complete (E := E) (M := 0) (j := j) hl (hq.matches.2 hm) hall g1 (Nat.le_refl _) g5 hsk ?_
        obtain ⟨I, e1, e2, -⟩ := opAt_inst ((hl.op l).trans g4)
        exact .fin e1 ⟨r, n, hr, by rw [e2]; rfl⟩

/-- The start of the program. -/
theorem compile_start {cap n : Nat} {ic : Bool} {ts : List (Tok Op)} {P : Prog} {e : Re Op} (h : compile cap ic ts = .ok (P, n)) (hg : G 0 0 ts e n) :
    opAt P.insts P.start = e.head ∨ (∃ k, opAt P.insts P.start = some (.lbra k)) ∨ (∃ k, opAt P.insts P.start = some (.or k)) := by
  obtain ⟨hp, e0, l, hf, hopt, hic, hcase⟩ := compile_frag h
  obtain ⟨k', hO, -, hfin⟩ := optimize_inv ⟨rfl, fun _ => rfl, fun _ _ => rfl, fun i hi => by omega⟩ hopt
  rw [hO.op]
  have := frag_head hf
  rcases hcase with ⟨rfl, -⟩ | ⟨A, e', hg', hq, rfl⟩
  · exact absurd rfl (G_ne_nil hg)
  · obtain ⟨rfl, -⟩ := G_unique hg hg'
    rw [show Re.head (.cat A (.one Op.fin)) = e.head from hq.head] at this
    exact this

end Verif.Regex
