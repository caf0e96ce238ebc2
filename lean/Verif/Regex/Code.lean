import Verif.Regex.Shape
import Verif.Regex.Runes
/- The program compiled for an expression matches what the expression means. -/
namespace Verif.Regex
open Spec (Tok Re G Parse Groups Matches)

/-! ### removing the `TOK_NOP` -/

/-- Behind the `TOK_NOP` instructions from `k` on comes `K`. -/
inductive Sk (h : List Inst) : Nat → Nat → Prop
  | here {k o} : opAt h k = some o → o ≠ .nop → Sk h k k
  | nop {k n K} : opAt h k = some .nop → nextAt h k = some n → Sk h n K → Sk h k K

theorem Sk.unique {h : List Inst} {k K K' : Nat} (a : Sk h k K) (b : Sk h k K') : K = K' := by
  induction a with
  | here h1 h2 =>
    cases b with
    | here => rfl
    | nop h3 => rw [h1] at h3; cases h3; exact absurd rfl h2
  | nop h1 h2 _ ih =>
    cases b with
    | here h3 h4 => rw [h1] at h3; cases h3; exact absurd rfl h4
    | nop _ h4 h5 => rw [h2] at h4; cases h4; exact ih h5

theorem Sk.stop {h : List Inst} {k K : Nat} (a : Sk h k K) : Sk h K K := by
  induction a with
  | here h1 h2 => exact .here h1 h2
  | nop _ _ _ ih => exact ih

theorem skip_sk {h : List Inst} : ∀ {f k t : Nat}, skipNop h f k = some t → Sk h k t
  | 0, _, _, e => by cases e
  | f + 1, k, t, e => by
    rw [skipNop] at e
    obtain ⟨i, e1, e⟩ := Option.bind_eq_some_iff.1 e
    split at e
    · rename_i hn
      obtain ⟨n, e2, e⟩ := Option.bind_eq_some_iff.1 e
      exact .nop (by rw [opAt_of e1, hn]) (by unfold nextAt; rw [e1]; exact e2) (skip_sk e)
    · rename_i hn
      cases e
      exact .here (opAt_of e1) hn

/-- The state of the loop of the optimiser before instruction `k`. -/
structure OInv (h g : List Inst) (k : Nat) : Prop where
  len : g.length = h.length
  op : ∀ i, opAt g i = opAt h i
  rest : ∀ i, k ≤ i → g[i]? = h[i]?
  done : ∀ i, i < k → ∃ n K, nextAt h i = some n ∧ Sk h n K ∧ nextAt g i = some K

theorem sk_back {h g : List Inst} {k : Nat} (hi : OInv h g k) {n K : Nat} (a : Sk g n K) : Sk h n K := by
  induction a with
  | here h1 h2 => exact .here (by rw [← hi.op]; exact h1) h2
  | @nop i n K h1 h2 h3 ih =>
    rw [hi.op] at h1
    by_cases hc : i < k
    · obtain ⟨n', K', e1, e2, e3⟩ := hi.done i hc
      rw [h2] at e3
      cases e3
      have := ih.unique e2.stop
      subst this
      exact .nop h1 e1 e2
    · exact .nop h1 (by rw [← nextAt_congr (hi.rest i (by omega))]; exact h2) ih

theorem optimize_inv {h : List Inst} : ∀ {f k : Nat} {g h' : List Inst}, OInv h g k → optimize g f k = some h' →
    ∃ k', OInv h h' k' ∧ k ≤ k' ∧ opAt h k' = some .fin
  | 0, _, _, _, _, e => by cases e
  | f + 1, k, g, h', hi, e => by
    rw [optimize] at e
    obtain ⟨I, e1, e⟩ := Option.bind_eq_some_iff.1 e
    split at e
    · rename_i hfin
      cases e
      exact ⟨k, hi, Nat.le_refl _, by rw [← hi.op, opAt_of e1, hfin]⟩
    · obtain ⟨n, e2, e⟩ := Option.bind_eq_some_iff.1 e
      obtain ⟨t, e3, e⟩ := Option.bind_eq_some_iff.1 e
      have hsk := sk_back hi (skip_sk e3)
      have hlt := (List.getElem?_eq_some_iff.1 e1).1
      have hi' : OInv h (g.set k { I with next := some t }) (k + 1) := by
        refine ⟨by simp [hi.len], fun i => ?_, fun i hki => ?_, fun i hik => ?_⟩
        · rw [← hi.op]
          unfold opAt
          rw [List.getElem?_set]
          split
          · rename_i hj; subst hj; rw [e1]; rfl
          · rfl
        · rw [List.getElem?_set_ne (by omega)]
          exact hi.rest i (by omega)
        · by_cases hc : i = k
          · subst hc
            refine ⟨n, t, ?_, hsk, ?_⟩
            · rw [← nextAt_congr (hi.rest i (Nat.le_refl _))]; unfold nextAt; rw [e1]; exact e2
            · unfold nextAt; rw [List.getElem?_set_self hlt]; rfl
          · obtain ⟨n', K', h1, h2, h3⟩ := hi.done i (by omega)
            exact ⟨n', K', h1, h2, by rw [nextAt_congr (List.getElem?_set_ne (Ne.symm hc))]; exact h3⟩
      obtain ⟨k', h1, h2, h3⟩ := optimize_inv hi' e
      exact ⟨k', h1, by omega, h3⟩

/-- The program after the optimisation, against the instructions before. -/
structure Linked (h : List Inst) (P : Prog) (b : Nat) : Prop where
  op : ∀ i, opAt P.insts i = opAt h i
  next : ∀ i n K, i < b → nextAt h i = some n → Sk h n K → nextAt P.insts i = some K

/-! ### the atoms -/

/-- Operands, and not operators. -/
def atom : Op → Bool
  | .lbra _ | .rbra _ | .or _ | .nop | .fin => false
  | _ => true

/-- What an operand matches. -/
def Hits (P : Prog) (E : Env) (o : Op) (i j : Nat) : Prop := (Does P E i o .go ∧ j = i) ∨ (Does P E i o .eat ∧ Step E i j)

theorem eff_atom {E : Env} {s r : Nat} {ic : Bool} {o : Op} (ho : atom o = true) {x : Nat × Bool × Eff} (h : eff E s r ic o = some x) :
    x.2.2 = .go ∨ x.2.2 = .eat ∨ x.2.2 = .die := by
  have t : ∀ b, Eff.test b = .go ∨ Eff.test b = .eat ∨ Eff.test b = .die := by intro b; cases b <;> simp [Eff.test]
  have p : ∀ b, Eff.pass b = .go ∨ Eff.pass b = .eat ∨ Eff.pass b = .die := by intro b; cases b <;> simp [Eff.pass]
  have q : ∀ {ob : Option Bool} {f : Bool → Eff}, (∀ b, f b = .go ∨ f b = .eat ∨ f b = .die) → (ob.bind fun b => some (r, ic, f b)) = some x →
      x.2.2 = .go ∨ x.2.2 = .eat ∨ x.2.2 = .die := by
    intro ob f hf h
    cases ob with
    | none => cases h
    | some b => cases h; exact hf b
  cases o with
  | lbra | rbra | or | nop | fin => cases ho
  | irune c => cases h; exact t _
  | rune c => cases h; exact t _
  | cased => cases h; exact .inl rfl
  | icase => cases h; exact .inl rfl
  | any => cases h; exact t _
  | anynl => cases h; exact .inr (.inl rfl)
  | bos => cases h; exact p _
  | eos => cases h; exact p _
  | cls n sp => cases h; exact t _
  | wbound => exact q (fun b => p b) h
  | nwbound => exact q (fun b => by cases b <;> simp) h
  | bol =>
    simp only [eff] at h
    split at h
    · cases h; exact .inl rfl
    · split at h
      · cases h
      · obtain ⟨b, -, h⟩ := Option.bind_eq_some_iff.1 h
        cases h; exact p _
  | eol =>
    simp only [eff] at h
    split at h
    · cases h; exact .inl rfl
    · cases h; exact p _
  | eoz =>
    simp only [eff] at h
    split at h
    · cases h; exact .inl rfl
    · split at h
      · obtain ⟨b, -, h⟩ := Option.bind_eq_some_iff.1 h
        cases h; exact p _
      · cases h; exact .inr (.inr rfl)

theorem does_atom {P : Prog} {E : Env} {i : Nat} {o : Op} {e : Eff} (ho : atom o = true) (h : Does P E i o e) : e = .go ∨ e = .eat ∨ e = .die := by
  obtain ⟨r, n, -, h⟩ := h
  obtain ⟨x, h1, rfl⟩ := Option.map_eq_some_iff.1 h
  exact eff_atom ho h1

theorem does_or {P : Prog} {E : Env} {i x : Nat} {e : Eff} (h : Does P E i (.or x) e) : e = .fork x := by
  obtain ⟨r, n, -, h⟩ := h
  simpa [eff] using h.symm

theorem does_lbra {P : Prog} {E : Env} {i x : Nat} {e : Eff} (h : Does P E i (.lbra x) e) : e = .opening x := by
  obtain ⟨r, n, -, h⟩ := h
  simpa [eff] using h.symm

theorem does_rbra {P : Prog} {E : Env} {i x : Nat} {e : Eff} (h : Does P E i (.rbra x) e) : e = .closing x := by
  obtain ⟨r, n, -, h⟩ := h
  simpa [eff] using h.symm

theorem does_fin {P : Prog} {E : Env} {i : Nat} {e : Eff} (h : Does P E i .fin e) : e = .fin := by
  obtain ⟨r, n, -, h⟩ := h
  simpa [eff] using h.symm

theorem inst_of {P : Prog} {pc : Nat} {o : Op} {I : Inst} (h : opAt P.insts pc = some o) (h' : P.insts[pc]? = some I) : I.op = o ∧ nextAt P.insts pc = I.next := by
  rw [opAt_of h'] at h
  cases h
  exact ⟨rfl, by unfold nextAt; rw [h']; rfl⟩

theorem opAt_inst {h : List Inst} {k : Nat} {o : Op} (e : opAt h k = some o) : ∃ I, h[k]? = some I ∧ I.op = o ∧ nextAt h k = I.next := by
  unfold opAt at e
  obtain ⟨I, e1, e2⟩ := Option.map_eq_some_iff.1 e
  exact ⟨I, e1, e2, by unfold nextAt; rw [e1]; rfl⟩

/-! ### from the program to the expression -/

section
variable {P : Prog} {E : Env}

theorem fut_or {pc x N i j : Nat} {σ τ : Se} (ho : opAt P.insts pc = some (.or x)) (h : Fut P E N pc i σ j τ) :
    ∃ M, N = M + 1 ∧ ((∃ k, nextAt P.insts pc = some k ∧ Fut P E M k i σ j τ) ∨ Fut P E M x i σ j τ) := by
  have key : ∀ {I e}, P.insts[pc]? = some I → Does P E i I.op e → e = .fork x := fun h1 h2 => does_or ((inst_of ho h1).1 ▸ h2)
  cases h with
  | fin h1 h2 => cases key h1 h2
  | go h1 h2 => cases key h1 h2
  | opening h1 h2 => cases key h1 h2
  | closing h1 h2 => cases key h1 h2
  | eat h1 h2 => cases key h1 h2
  | left h1 h2 h3 h4 => exact ⟨_, rfl, .inl ⟨_, (inst_of ho h1).2.trans h3, h4⟩⟩
  | right h1 h2 h3 => cases key h1 h2; exact ⟨_, rfl, .inr h3⟩

theorem fut_lbra {pc x N i j : Nat} {σ τ : Se} (ho : opAt P.insts pc = some (.lbra x)) (h : Fut P E N pc i σ j τ) :
    ∃ M k, N = M + 1 ∧ nextAt P.insts pc = some k ∧ Fut P E M k i (setBuf σ x i) j τ := by
  have key : ∀ {I e}, P.insts[pc]? = some I → Does P E i I.op e → e = .opening x := fun h1 h2 => does_lbra ((inst_of ho h1).1 ▸ h2)
  cases h with
  | fin h1 h2 => cases key h1 h2
  | go h1 h2 => cases key h1 h2
  | closing h1 h2 => cases key h1 h2
  | eat h1 h2 => cases key h1 h2
  | left h1 h2 => cases key h1 h2
  | right h1 h2 => cases key h1 h2
  | opening h1 h2 h3 h4 => cases key h1 h2; exact ⟨_, _, rfl, (inst_of ho h1).2.trans h3, h4⟩

theorem fut_rbra {pc x N i j : Nat} {σ τ : Se} (ho : opAt P.insts pc = some (.rbra x)) (h : Fut P E N pc i σ j τ) :
    ∃ M k σ', N = M + 1 ∧ nextAt P.insts pc = some k ∧ setSize σ x i = some σ' ∧ Fut P E M k i σ' j τ := by
  have key : ∀ {I e}, P.insts[pc]? = some I → Does P E i I.op e → e = .closing x := fun h1 h2 => does_rbra ((inst_of ho h1).1 ▸ h2)
  cases h with
  | fin h1 h2 => cases key h1 h2
  | go h1 h2 => cases key h1 h2
  | opening h1 h2 => cases key h1 h2
  | eat h1 h2 => cases key h1 h2
  | left h1 h2 => cases key h1 h2
  | right h1 h2 => cases key h1 h2
  | closing h1 h2 h3 h4 h5 => cases key h1 h2; exact ⟨_, _, _, rfl, (inst_of ho h1).2.trans h3, h4, h5⟩

theorem fut_atom {pc N i j : Nat} {o : Op} {σ τ : Se} (ha : atom o = true) (ho : opAt P.insts pc = some o) (h : Fut P E N pc i σ j τ) :
    ∃ M k i1, N = M + 1 ∧ nextAt P.insts pc = some k ∧ Hits P E o i i1 ∧ Fut P E M k i1 σ j τ := by
  have key : ∀ {I e}, P.insts[pc]? = some I → Does P E i I.op e → Does P E i o e ∧ (e = .go ∨ e = .eat ∨ e = .die) := fun h1 h2 => by
    have h2 := (inst_of ho h1).1 ▸ h2
    exact ⟨h2, does_atom ha h2⟩
  cases h with
  | fin h1 h2 => rcases (key h1 h2).2 with h | h | h <;> cases h
  | opening h1 h2 => rcases (key h1 h2).2 with h | h | h <;> cases h
  | closing h1 h2 => rcases (key h1 h2).2 with h | h | h <;> cases h
  | left h1 h2 => rcases (key h1 h2).2 with h | h | h <;> cases h
  | right h1 h2 => rcases (key h1 h2).2 with h | h | h <;> cases h
  | go h1 h2 h3 h4 => exact ⟨_, _, _, rfl, (inst_of ho h1).2.trans h3, .inl ⟨(key h1 h2).1, rfl⟩, h4⟩
  | eat h1 h2 h3 h4 h5 => exact ⟨_, _, _, rfl, (inst_of ho h1).2.trans h3, .inr ⟨(key h1 h2).1, h4⟩, h5⟩

theorem fut_fin {pc N i j : Nat} {σ τ : Se} (ho : opAt P.insts pc = some .fin) (h : Fut P E N pc i σ j τ) : j = i ∧ τ = σ := by
  have key : ∀ {I e}, P.insts[pc]? = some I → Does P E i I.op e → e = .fin := fun h1 h2 => does_fin ((inst_of ho h1).1 ▸ h2)
  cases h with
  | fin h1 h2 => exact ⟨rfl, rfl⟩
  | go h1 h2 => cases key h1 h2
  | opening h1 h2 => cases key h1 h2
  | closing h1 h2 => cases key h1 h2
  | eat h1 h2 => cases key h1 h2
  | left h1 h2 => cases key h1 h2
  | right h1 h2 => cases key h1 h2
end

end Verif.Regex
