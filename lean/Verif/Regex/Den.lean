import Verif.Regex.TextSpec
import Verif.Regex.Code
/- The program compiled for an expression matches what the expression means. -/
namespace Verif.Regex
open Spec (Tok Re G Parse Groups Matches)

/-- The thread has these groups, except for those in `O`. -/
def Agree (O : List Nat) (σ : Se) (g : Groups) : Prop := ∀ k, k ∉ O → σ.sub k = subOf (g k)

/-- From position `i` and groups `σ` on the expression can be matched up to `i1`, with groups `σ1`. -/
structure Run (A : Op → Nat → Nat → Prop) (e : Re Op) (i : Nat) (σ : Se) (i1 : Nat) (σ1 : Se) : Prop where
  le : i ≤ i1
  start : σ1.start = σ.start
  frame : ∀ k, k ∉ ids e → σ1.sub k = σ.sub k
  parse : ∀ O g, (∀ k ∈ O, k ∉ ids e) → Agree O σ g → ∃ g', Parse A e i g i1 g' ∧ Agree O σ1 g'

section
variable {A : Op → Nat → Nat → Prop}

theorem run_one {o : Op} {i j : Nat} {σ : Se} (h : A o i j) (hle : i ≤ j) : Run A (.one o) i σ j σ :=
  ⟨hle, rfl, fun _ _ => rfl, fun _ g _ ha => ⟨g, .one h, ha⟩⟩

theorem run_cat {a b : Re Op} {i j l : Nat} {σ σ' σ'' : Se} (h1 : Run A a i σ j σ') (h2 : Run A b j σ' l σ'') : Run A (.cat a b) i σ l σ'' := by
  refine ⟨by have := h1.le; have := h2.le; omega, h2.start.trans h1.start, fun k hk => ?_, fun O g hO ha => ?_⟩
  · simp only [ids, List.mem_append, not_or] at hk
    rw [h2.frame k hk.2, h1.frame k hk.1]
  · simp only [ids, List.mem_append, not_or] at hO
    obtain ⟨g', p1, a1⟩ := h1.parse O g (fun k hk => (hO k hk).1) ha
    obtain ⟨g'', p2, a2⟩ := h2.parse O g' (fun k hk => (hO k hk).2) a1
    exact ⟨g'', .cat p1 p2, a2⟩

theorem run_altL {a b : Re Op} {i j : Nat} {σ σ' : Se} (h : Run A a i σ j σ') : Run A (.alt a b) i σ j σ' := by
  refine ⟨h.le, h.start, fun k hk => ?_, fun O g hO ha => ?_⟩
  · simp only [ids, List.mem_append, not_or] at hk
    exact h.frame k hk.1
  · simp only [ids, List.mem_append, not_or] at hO
    obtain ⟨g', p1, a1⟩ := h.parse O g (fun k hk => (hO k hk).1) ha
    exact ⟨g', .altL p1, a1⟩

theorem run_altR {a b : Re Op} {i j : Nat} {σ σ' : Se} (h : Run A b i σ j σ') : Run A (.alt a b) i σ j σ' := by
  refine ⟨h.le, h.start, fun k hk => ?_, fun O g hO ha => ?_⟩
  · simp only [ids, List.mem_append, not_or] at hk
    exact h.frame k hk.2
  · simp only [ids, List.mem_append, not_or] at hO
    obtain ⟨g', p1, a1⟩ := h.parse O g (fun k hk => (hO k hk).2) ha
    exact ⟨g', .altR p1, a1⟩

theorem run_starNil {e : Re Op} {i : Nat} {σ : Se} : Run A (.star e) i σ i σ :=
  ⟨Nat.le_refl _, rfl, fun _ _ => rfl, fun _ g _ ha => ⟨g, .starNil, ha⟩⟩

theorem run_starCons {e : Re Op} {i j l : Nat} {σ σ' σ'' : Se} (h1 : Run A e i σ j σ') (h2 : Run A (.star e) j σ' l σ'') : Run A (.star e) i σ l σ'' := by
  refine ⟨by have := h1.le; have := h2.le; omega, h2.start.trans h1.start, fun k hk => ?_, fun O g hO ha => ?_⟩
  · rw [h2.frame k hk, h1.frame k hk]
  · obtain ⟨g', p1, a1⟩ := h1.parse O g hO ha
    obtain ⟨g'', p2, a2⟩ := h2.parse O g' hO a1
    exact ⟨g'', .starCons p1 p2, a2⟩

theorem run_plus {e : Re Op} {i j l : Nat} {σ σ' σ'' : Se} (h1 : Run A e i σ j σ') (h2 : Run A (.star e) j σ' l σ'') : Run A (.plus e) i σ l σ'' := by
  refine ⟨by have := h1.le; have := h2.le; omega, h2.start.trans h1.start, fun k hk => ?_, fun O g hO ha => ?_⟩
  · rw [h2.frame k hk, h1.frame k hk]
  · obtain ⟨g', p1, a1⟩ := h1.parse O g hO ha
    obtain ⟨g'', p2, a2⟩ := h2.parse O g' hO a1
    exact ⟨g'', .plus p1 p2, a2⟩

theorem run_optNil {e : Re Op} {i : Nat} {σ : Se} : Run A (.opt e) i σ i σ :=
  ⟨Nat.le_refl _, rfl, fun _ _ => rfl, fun _ g _ ha => ⟨g, .optNil, ha⟩⟩

theorem run_opt {e : Re Op} {i j : Nat} {σ σ' : Se} (h : Run A e i σ j σ') : Run A (.opt e) i σ j σ' := by
  refine ⟨h.le, h.start, h.frame, fun O g hO ha => ?_⟩
  obtain ⟨g', p1, a1⟩ := h.parse O g hO ha
  exact ⟨g', .opt p1, a1⟩

theorem run_grp {e : Re Op} {k i j : Nat} {σ σ' σ'' : Se} (hw : k ∉ ids e) (h : Run A e i (setBuf σ k i) j σ') (hs : setSize σ' k j = some σ'') :
    Run A (.grp k e) i σ j σ'' := by
  have hk : σ'.sub k = { σ.sub k with buf := some i } := by rw [h.frame k hw]; simp [setBuf]
  unfold setSize at hs
  rw [hk] at hs
  simp only [Option.map_some, Option.some.injEq] at hs
  subst hs
  refine ⟨h.le, h.start, fun x hx => ?_, fun O g hO ha => ?_⟩
  · simp only [ids, List.mem_cons, not_or] at hx
    simp only [if_neg hx.1]
    rw [h.frame x hx.2]
    simp [setBuf, hx.1]
  · have hkO : k ∉ O := fun hk => by have := hO k hk; simp [ids] at this
    obtain ⟨g', p1, a1⟩ := h.parse (k :: O) g (fun x hx => by
        rcases List.mem_cons.1 hx with rfl | hx
        · exact hw
        · have := hO x hx; simp only [ids, List.mem_cons, not_or] at this; exact this.2) (fun x hx => by
        simp only [List.mem_cons, not_or] at hx
        simp only [setBuf, if_neg hx.1]
        exact ha x hx.2)
    refine ⟨_, .grp p1, fun x hx => ?_⟩
    by_cases hxk : x = k
    · subst hxk
      have := h.le
      simp only [if_true, Groups.set, subOf, Sub.mk.injEq, true_and]
      omega
    · simp only [if_neg hxk, Groups.set]
      exact a1 x (by simp [hxk, hx])
end

/-! ### code and meaning -/

/-- Where the instructions of an expression are entered: at its head, or at one of the instructions for
the operators. -/
theorem frag_head {h : List Inst} : ∀ {e : Re Op} {a b f l : Nat}, Frag h e a b f l →
    opAt h f = e.head ∨ (∃ k, opAt h f = some (.lbra k)) ∨ (∃ k, opAt h f = some (.or k))
  | .one o, a, b, f, l, hf => by
    obtain ⟨rfl, rfl, rfl, h4⟩ := hf
    exact .inl h4
  | .grp k e, a, b, f, l, hf => by
    obtain ⟨b', f', l', h1, rfl, rfl, rfl, h5, -⟩ := hf
    exact .inr (.inl ⟨_, opAt_of h5⟩)
  | .alt e1 e2, a, b, f, l, hf => by
    obtain ⟨m, b', f1, l1, f2, l2, h1, h2, rfl, rfl, rfl, h5, -⟩ := hf
    exact .inr (.inr ⟨_, opAt_of h5⟩)
  | .cat e1 e2, a, b, f, l, hf => by
    obtain ⟨m, l1, f2, h1, h2, -⟩ := hf
    have := frag_head h1
    exact this
  | .star e, a, b, f, l, hf => by
    obtain ⟨b', f1, l1, h1, rfl, rfl, rfl, h4, -⟩ := hf
    exact .inr (.inr ⟨_, h4⟩)
  | .plus e, a, b, f, l, hf => by
    obtain ⟨b', l1, h1, rfl, rfl, h4, -⟩ := hf
    have := frag_head h1
    exact this
  | .opt e, a, b, f, l, hf => by
    obtain ⟨b', f1, l1, h1, rfl, rfl, rfl, h4, h5, -⟩ := hf
    exact .inr (.inr ⟨_, opAt_of h4⟩)

theorem frag_first {h : List Inst} : ∀ {e : Re Op} {a b f l : Nat}, All (fun o => atom o = true) e → Frag h e a b f l → Sk h f f
  | .one o, a, b, f, l, ho, hf => by
    obtain ⟨rfl, rfl, rfl, h4⟩ := hf
    exact .here h4 (fun e => by subst e; cases ho)
  | .grp k e, a, b, f, l, ho, hf => by
    obtain ⟨b', f', l', h1, rfl, rfl, rfl, h5, -⟩ := hf
    exact .here (opAt_of h5) (by simp)
  | .alt e1 e2, a, b, f, l, ho, hf => by
    obtain ⟨m, b', f1, l1, f2, l2, h1, h2, rfl, rfl, rfl, h5, -⟩ := hf
    exact .here (opAt_of h5) (by simp)
  | .cat e1 e2, a, b, f, l, ho, hf => by
    obtain ⟨m, l1, f2, h1, h2, -⟩ := hf
    exact frag_first ho.1 h1
  | .star e, a, b, f, l, ho, hf => by
    obtain ⟨b', f1, l1, h1, rfl, rfl, rfl, h4, -⟩ := hf
    exact .here h4 (by simp)
  | .plus e, a, b, f, l, ho, hf => by
    obtain ⟨b', l1, h1, rfl, rfl, h4, -⟩ := hf
    exact frag_first (e := e) ho h1
  | .opt e, a, b, f, l, ho, hf => by
    obtain ⟨b', f1, l1, h1, rfl, rfl, rfl, h4, h5, -⟩ := hf
    exact .here (opAt_of h4) (by simp)

section
variable {P : Prog} {E : Env} {h : List Inst} {B : Nat}

/-- What has to be shown of the code of `e`. -/
def Sound (P : Prog) (E : Env) (e : Re Op) (f K : Nat) : Prop := ∀ N i σ j τ, Fut P E N f i σ j τ →
  ∃ i1 σ1 M, M < N ∧ Run (Hits P E) e i σ i1 σ1 ∧ Fut P E M K i1 σ1 j τ

theorem star_sound {e : Re Op} {f1 b K : Nat} (he : Sound P E e f1 b) (ho : opAt P.insts b = some (.or f1)) (hn : nextAt P.insts b = some K) :
    Sound P E (.star e) b K := by
  intro N
  induction N using Nat.strongRecOn with
  | ind N ih =>
    intro i σ j τ hf
    obtain ⟨M, rfl, h1⟩ := fut_or ho hf
    rcases h1 with ⟨k, h2, h3⟩ | h3
    · rw [hn] at h2; cases h2
      exact ⟨i, σ, M, by omega, run_starNil, h3⟩
    · obtain ⟨i1, σ1, M1, hlt, r1, h4⟩ := he M i σ j τ h3
      obtain ⟨i2, σ2, M2, hlt2, r2, h5⟩ := ih M1 (by omega) i1 σ1 j τ h4
      exact ⟨i2, σ2, M2, by omega, run_starCons r1 r2, h5⟩

theorem frag_sound (hl : Linked h P B) : ∀ {e : Re Op} {a b f l n K : Nat}, All (fun o => atom o = true) e → Wf e → Frag h e a b f l → b ≤ B →
    nextAt h l = some n → Sk h n K → Sound P E e f K
  | .one o, a, b, f, l, n, K, ho, hw, hf, hb, hn, hK => by
    obtain ⟨rfl, rfl, rfl, h4⟩ := hf
    intro N i σ j τ hF
    obtain ⟨M, k, i1, rfl, h1, h2, h3⟩ := fut_atom ho ((hl.op _).trans h4) hF
    rw [hl.next _ _ _ (by omega) hn hK] at h1
    cases h1
    refine ⟨i1, σ, M, by omega, run_one h2 ?_, h3⟩
    rcases h2 with ⟨-, rfl⟩ | ⟨-, h2⟩
    · exact Nat.le_refl _
    · exact Nat.le_of_lt (step_lt h2)
  | .grp k e, a, b, f, l, n, K, ho, hw, hf, hb, hn, hK => by
    obtain ⟨b', f', l', h1, rfl, rfl, rfl, h5, h6, h7⟩ := hf
    have hs := frag_sound hl (e := e) ho hw.2 h1 (by omega) h7 (.here h6 (by simp))
    intro N i σ j τ hF
    obtain ⟨M, k1, rfl, q1, q2⟩ := fut_lbra ((hl.op _).trans (opAt_of h5)) hF
    rw [hl.next (l + 1) f' f' (by omega) (by unfold nextAt; rw [h5]; rfl) (frag_first (e := e) ho h1)] at q1
    cases q1
    obtain ⟨i1, σ1, M1, hlt, r1, q3⟩ := hs M _ _ _ _ q2
    obtain ⟨M2, k2, σ2, rfl, q4, q5, q6⟩ := fut_rbra ((hl.op _).trans h6) q3
    rw [hl.next l n K (by omega) hn hK] at q4
    cases q4
    exact ⟨i1, σ2, M2, by omega, run_grp hw.1 r1 q5, q6⟩
  | .alt e1 e2, a, b, f, l, n, K, ho, hw, hf, hb, hn, hK => by
    obtain ⟨m, b', f1, l1, f2, l2, h1, h2, rfl, rfl, rfl, h5, h6, h7, h8⟩ := hf
    have hK' : Sk h l K := .nop h6 hn hK
    have hb1 := frag_bounds h1
    have hb2 := frag_bounds h2
    have s1 := frag_sound hl ho.1 hw.1 h1 (by omega) h7 hK'
    have s2 := frag_sound hl ho.2 hw.2 h2 (by omega) h8 hK'
    intro N i σ j τ hF
    obtain ⟨M, rfl, q1⟩ := fut_or ((hl.op _).trans (opAt_of h5)) hF
    rcases q1 with ⟨k, q1, q2⟩ | q2
    · rw [hl.next (l + 1) f2 f2 (by omega) (by unfold nextAt; rw [h5]; rfl) (frag_first ho.2 h2)] at q1
      cases q1
      obtain ⟨i1, σ1, M1, hlt, r1, q3⟩ := s2 M _ _ _ _ q2
      exact ⟨i1, σ1, M1, by omega, run_altR r1, q3⟩
    · obtain ⟨i1, σ1, M1, hlt, r1, q3⟩ := s1 M _ _ _ _ q2
      exact ⟨i1, σ1, M1, by omega, run_altL r1, q3⟩
  | .cat e1 e2, a, b, f, l, n, K, ho, hw, hf, hb, hn, hK => by
    obtain ⟨m, l1, f2, h1, h2, h3⟩ := hf
    have hb2 := frag_bounds h2
    have s1 := frag_sound hl ho.1 hw.1 h1 (by omega) h3 (frag_first ho.2 h2)
    have s2 := frag_sound hl ho.2 hw.2 h2 (by omega) hn hK
    intro N i σ j τ hF
    obtain ⟨i1, σ1, M1, hlt, r1, q1⟩ := s1 N _ _ _ _ hF
    obtain ⟨i2, σ2, M2, hlt2, r2, q2⟩ := s2 M1 _ _ _ _ q1
    exact ⟨i2, σ2, M2, by omega, run_cat r1 r2, q2⟩
  | .star e, a, b, f, l, n, K, ho, hw, hf, hb, hn, hK => by
    obtain ⟨b', f1, l1, h1, rfl, rfl, rfl, h4, h5⟩ := hf
    have s1 := frag_sound hl (e := e) ho hw h1 (by omega) h5 (.here h4 (by simp))
    exact star_sound s1 ((hl.op _).trans h4) (hl.next _ _ _ (by omega) hn hK)
  | .plus e, a, b, f, l, n, K, ho, hw, hf, hb, hn, hK => by
    obtain ⟨b', l1, h1, rfl, rfl, h4, h5⟩ := hf
    have s1 := frag_sound hl (e := e) ho hw h1 (by omega) h5 (.here h4 (by simp))
    have s2 := star_sound s1 ((hl.op _).trans h4) (hl.next _ _ _ (by omega) hn hK)
    intro N i σ j τ hF
    obtain ⟨i1, σ1, M1, hlt, r1, q1⟩ := s1 N _ _ _ _ hF
    obtain ⟨i2, σ2, M2, hlt2, r2, q2⟩ := s2 M1 _ _ _ _ q1
    exact ⟨i2, σ2, M2, by omega, run_plus r1 r2, q2⟩
  | .opt e, a, b, f, l, n, K, ho, hw, hf, hb, hn, hK => by
    obtain ⟨b', f1, l1, h1, rfl, rfl, rfl, h4, h5, h6⟩ := hf
    have hK' : Sk h (f + 1) K := .nop h5 hn hK
    have s1 := frag_sound hl (e := e) ho hw h1 (by omega) h6 hK'
    intro N i σ j τ hF
    obtain ⟨M, rfl, q1⟩ := fut_or ((hl.op _).trans (opAt_of h4)) hF
    rcases q1 with ⟨k, q1, q2⟩ | q2
    · rw [hl.next f (f + 1) K (by omega) (by unfold nextAt; rw [h4]; rfl) hK'] at q1
      cases q1
      exact ⟨i, σ, M, by omega, run_optNil, q2⟩
    · obtain ⟨i1, σ1, M1, hlt, r1, q3⟩ := s1 M _ _ _ _ q2
      exact ⟨i1, σ1, M1, by omega, run_opt r1, q3⟩

theorem F_rune {N pc i j : Nat} (h : F P E N pc i j) : ∃ r n, rune E.m i = some (r, n) := by
  cases h with
  | fin _ h => obtain ⟨r, n, h, -⟩ := h; exact ⟨r, n, h⟩
  | go _ h => obtain ⟨r, n, h, -⟩ := h; exact ⟨r, n, h⟩
  | opening _ h => obtain ⟨r, n, h, -⟩ := h; exact ⟨r, n, h⟩
  | closing _ h => obtain ⟨r, n, h, -⟩ := h; exact ⟨r, n, h⟩
  | left _ h => obtain ⟨r, n, h, -⟩ := h; exact ⟨r, n, h⟩
  | right _ h => obtain ⟨r, n, h, -⟩ := h; exact ⟨r, n, h⟩
  | eat _ h => obtain ⟨r, n, h, -⟩ := h; exact ⟨r, n, h⟩

theorem F_left {M pc x k i j : Nat} (ho : opAt P.insts pc = some (.or x)) (hn : nextAt P.insts pc = some k) (h : F P E M k i j) : F P E (M + 1) pc i j := by
  obtain ⟨I, e1, e2, e3⟩ := opAt_inst ho
  obtain ⟨r, n, hr⟩ := F_rune h
  exact .left (x := x) e1 ⟨r, n, hr, by rw [e2]; rfl⟩ (e3.symm.trans hn) h

theorem F_right {M pc x i j : Nat} (ho : opAt P.insts pc = some (.or x)) (h : F P E M x i j) : F P E (M + 1) pc i j := by
  obtain ⟨I, e1, e2, e3⟩ := opAt_inst ho
  obtain ⟨r, n, hr⟩ := F_rune h
  exact .right (x := x) e1 ⟨r, n, hr, by rw [e2]; rfl⟩ h

theorem F_lbra {M pc x k i j : Nat} (ho : opAt P.insts pc = some (.lbra x)) (hn : nextAt P.insts pc = some k) (h : F P E M k i j) : F P E (M + 1) pc i j := by
  obtain ⟨I, e1, e2, e3⟩ := opAt_inst ho
  obtain ⟨r, n, hr⟩ := F_rune h
  exact .opening (x := x) e1 ⟨r, n, hr, by rw [e2]; rfl⟩ (e3.symm.trans hn) h

theorem F_rbra {M pc x k i j : Nat} (ho : opAt P.insts pc = some (.rbra x)) (hn : nextAt P.insts pc = some k) (h : F P E M k i j) : F P E (M + 1) pc i j := by
  obtain ⟨I, e1, e2, e3⟩ := opAt_inst ho
  obtain ⟨r, n, hr⟩ := F_rune h
  exact .closing (x := x) e1 ⟨r, n, hr, by rw [e2]; rfl⟩ (e3.symm.trans hn) h

theorem frag_complete (hl : Linked h P B) {e : Re Op} {i i1 : Nat} (hm : Matches (Hits P E) e i i1) : All (fun o => atom o = true) e →
    ∀ {a b f l n K M j : Nat}, Frag h e a b f l → b ≤ B → nextAt h l = some n → Sk h n K → F P E M K i1 j → ∃ M', F P E M' f i j := by
  induction hm with
  | @one o i i1 hit =>
    intro ho a b f l n K M j hf hb hn hK hF
    obtain ⟨rfl, rfl, rfl, h4⟩ := hf
    obtain ⟨I, e1, e2, e3⟩ := opAt_inst ((hl.op _).trans h4)
    have hk := hl.next _ _ _ (by omega) hn hK
    rcases hit with ⟨hd, rfl⟩ | ⟨hd, hst⟩
    · exact ⟨_, .go e1 (e2.symm ▸ hd) (e3.symm.trans hk) hF⟩
    · exact ⟨_, .eat e1 (e2.symm ▸ hd) (e3.symm.trans hk) hst hF⟩
  | @grp k e i i1 _ ih =>
    intro ho a b f l n K M j hf hb hn hK hF
    obtain ⟨b', f', l', h1, rfl, rfl, rfl, h5, h6, h7⟩ := hf
    have q1 := F_rbra ((hl.op _).trans h6) (hl.next l n K (by omega) hn hK) hF
    obtain ⟨M', q2⟩ := ih ho h1 (by omega) h7 (.here h6 (by simp)) q1
    exact ⟨_, F_lbra ((hl.op _).trans (opAt_of h5)) (hl.next (l + 1) f' f' (by omega) (by unfold nextAt; rw [h5]; rfl) (frag_first (e := e) ho h1)) q2⟩
  | @cat e1 e2 i i1 i2 _ _ ih1 ih2 =>
    intro ho a b f l n K M j hf hb hn hK hF
    obtain ⟨m, l1, f2, h1, h2, h3⟩ := hf
    have hb2 := frag_bounds h2
    obtain ⟨M1, q1⟩ := ih2 ho.2 h2 hb hn hK hF
    exact ih1 ho.1 h1 (by omega) h3 (frag_first ho.2 h2) q1
  | @altL e1 e2 i i1 _ ih =>
    intro ho a b f l n K M j hf hb hn hK hF
    obtain ⟨m, b', f1, l1, f2, l2, h1, h2, rfl, rfl, rfl, h5, h6, h7, h8⟩ := hf
    have hb1 := frag_bounds h1
    have hb2 := frag_bounds h2
    obtain ⟨M1, q1⟩ := ih ho.1 h1 (by omega) h7 (.nop h6 hn hK) hF
    exact ⟨_, F_right ((hl.op _).trans (opAt_of h5)) q1⟩
  | @altR e1 e2 i i1 _ ih =>
    intro ho a b f l n K M j hf hb hn hK hF
    obtain ⟨m, b', f1, l1, f2, l2, h1, h2, rfl, rfl, rfl, h5, h6, h7, h8⟩ := hf
    have hb1 := frag_bounds h1
    have hb2 := frag_bounds h2
    obtain ⟨M1, q1⟩ := ih ho.2 h2 (by omega) h8 (.nop h6 hn hK) hF
    exact ⟨_, F_left ((hl.op _).trans (opAt_of h5)) (hl.next (l + 1) f2 f2 (by omega) (by unfold nextAt; rw [h5]; rfl) (frag_first ho.2 h2)) q1⟩
  | @starNil e i =>
    intro ho a b f l n K M j hf hb hn hK hF
    obtain ⟨b', f1, l1, h1, rfl, rfl, rfl, h4, h5⟩ := hf
    exact ⟨_, F_left ((hl.op _).trans h4) (hl.next _ _ _ (by omega) hn hK) hF⟩
  | @starCons e i i1 i2 _ _ ih1 ih2 =>
    intro ho a b f l n K M j hf hb hn hK hF
    obtain ⟨M1, q1⟩ := ih2 ho hf hb hn hK hF
    obtain ⟨b', f1, l1, h1, rfl, rfl, rfl, h4, h5⟩ := hf
    obtain ⟨M2, q2⟩ := ih1 ho h1 (by omega) h5 (.here h4 (by simp)) q1
    exact ⟨_, F_right ((hl.op _).trans h4) q2⟩
  | @plus e i i1 i2 _ _ ih1 ih2 =>
    intro ho a b f l n K M j hf hb hn hK hF
    obtain ⟨b', l1, h1, rfl, rfl, h4, h5⟩ := hf
    obtain ⟨M1, q1⟩ := ih2 ho (a := a) (b := l + 1) (f := l) (l := l) ⟨l, f, l1, h1, rfl, rfl, rfl, h4, h5⟩ hb hn hK hF
    exact ih1 ho h1 (by omega) h5 (.here h4 (by simp)) q1
  | @optNil e i =>
    intro ho a b f l n K M j hf hb hn hK hF
    obtain ⟨b', f1, l1, h1, rfl, rfl, rfl, h4, h5, h6⟩ := hf
    exact ⟨_, F_left ((hl.op _).trans (opAt_of h4)) (hl.next f (f + 1) K (by omega) (by unfold nextAt; rw [h4]; rfl) (.nop h5 hn hK)) hF⟩
  | @opt e i i1 _ ih =>
    intro ho a b f l n K M j hf hb hn hK hF
    obtain ⟨b', f1, l1, h1, rfl, rfl, rfl, h4, h5, h6⟩ := hf
    obtain ⟨M1, q1⟩ := ih ho h1 (by omega) h6 (.nop h5 hn hK) hF
    exact ⟨_, F_right ((hl.op _).trans (opAt_of h4)) q1⟩
end

end Verif.Regex
