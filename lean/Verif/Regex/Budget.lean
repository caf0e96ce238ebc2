import Verif.Regex.Main
/- The threads that the compiled program of an expression may need. -/
namespace Verif.Regex
open Spec (Tok Re G)

/-- Operands standing for a character. -/
def eatOp : Op → Bool
  | .rune _ | .irune _ | .any | .anynl | .cls _ _ => true
  | _ => false

/-- Instructions that lead to the next one, or nowhere. -/
def passOp : Op → Bool
  | .lbra _ | .rbra _ | .bol | .bos | .eol | .eos | .eoz | .wbound | .cased | .icase => true
  | _ => false

/-- From instruction `pc` on, `n` threads are added at one position, and threads added thereby included; a
thread passes less than `h` instructions, and each of those added less than `N`. -/
inductive Cost (P : Prog) (N : Nat) : Nat → Nat → Nat → Prop
  | eat {h pc o} : opAt P.insts pc = some o → eatOp o = true → Cost P N (h + 1) pc 0
  | fin {h pc} : opAt P.insts pc = some .fin → Cost P N (h + 1) pc 0
  | pass {h pc o k n} : opAt P.insts pc = some o → passOp o = true → nextAt P.insts pc = some k → Cost P N h k n → Cost P N (h + 1) pc n
  | or {h pc r k n n'} : opAt P.insts pc = some (.or r) → nextAt P.insts pc = some k → Cost P N h k n → Cost P N N r n' → Cost P N (h + 1) pc (n + n' + 1)

theorem Cost.mono {P : Prog} {N h h' pc n : Nat} (hc : Cost P N h pc n) (hle : h ≤ h') : Cost P N h' pc n := by
  induction hc generalizing h' with
  | eat h1 h2 => obtain ⟨h', rfl⟩ : ∃ x, h' = x + 1 := ⟨h' - 1, by omega⟩; exact .eat h1 h2
  | fin h1 => obtain ⟨h', rfl⟩ : ∃ x, h' = x + 1 := ⟨h' - 1, by omega⟩; exact .fin h1
  | pass h1 h2 h3 _ ih => obtain ⟨h', rfl⟩ : ∃ x, h' = x + 1 := ⟨h' - 1, by omega⟩; exact .pass h1 h2 h3 (ih (by omega))
  | or h1 h2 _ h4 ih _ => obtain ⟨h', rfl⟩ : ∃ x, h' = x + 1 := ⟨h' - 1, by omega⟩; exact .or h1 h2 (ih (by omega)) h4

theorem eat_pass {o : Op} (h : eatOp o = true) (h' : passOp o = true) : False := by
  cases o <;> first | (cases h; done) | (cases h'; done)

theorem Cost.unique {P : Prog} {N h h' pc n n' : Nat} (a : Cost P N h pc n) (b : Cost P N h' pc n') : n = n' := by
  induction a generalizing h' n' with
  | eat h1 h2 =>
    cases b with
    | eat => rfl
    | fin => rfl
    | pass g1 g2 => rw [h1] at g1; cases g1; exact (eat_pass h2 g2).elim
    | or g1 => rw [h1] at g1; cases g1; cases h2
  | fin h1 =>
    cases b with
    | eat => rfl
    | fin => rfl
    | pass g1 g2 => rw [h1] at g1; cases g1; cases g2
    | or g1 => rw [h1] at g1; cases g1
  | pass h1 h2 h3 _ ih =>
    cases b with
    | eat g1 g2 => rw [h1] at g1; cases g1; exact (eat_pass g2 h2).elim
    | fin g1 => rw [h1] at g1; cases g1; cases h2
    | pass g1 g2 g3 g4 => rw [h3] at g3; cases g3; exact ih g4
    | or g1 => rw [h1] at g1; cases g1; cases h2
  | or h1 h2 _ _ ih1 ih2 =>
    cases b with
    | eat g1 g2 => rw [h1] at g1; cases g1; cases g2
    | fin g1 => rw [h1] at g1; cases g1
    | pass g1 g2 g3 g4 => rw [h1] at g1; cases g1; cases g2
    | or g1 g2 g3 g4 =>
      rw [h1] at g1
      cases g1
      rw [h2] at g2
      cases g2
      rw [ih1 g3, ih2 g4]

/-- Operands that are either. -/
def calm (o : Op) : Prop := atom o = true ∧ (eatOp o = true ∨ passOp o = true)

theorem all_mono {p q : Op → Prop} (hpq : ∀ o, p o → q o) : ∀ {e : Re Op}, All p e → All q e
  | .one _, h => hpq _ h
  | .grp _ e, h => all_mono (e := e) hpq h
  | .cat _ _, h => ⟨all_mono hpq h.1, all_mono hpq h.2⟩
  | .alt _ _, h => ⟨all_mono hpq h.1, all_mono hpq h.2⟩
  | .star e, h => all_mono (e := e) hpq h
  | .plus e, h => all_mono (e := e) hpq h
  | .opt e, h => all_mono (e := e) hpq h

section
variable {P : Prog} {h : List Inst} {B N : Nat}

theorem frag_cost (hl : Linked h P B) : ∀ {e : Re Op} {a b f l n K c hK : Nat}, All calm e → e.strict eatOp = true → Frag h e a b f l → b ≤ B →
    nextAt h l = some n → Sk h n K → b - a + hK ≤ N → 1 ≤ hK → (e.null eatOp = false ∨ Cost P N hK K c) → Cost P N (b - a + hK) f (e.forks eatOp c)
  | .one o, a, b, f, l, n, K, c, hK, ho, hs, hf, hb, hn, hK', hN, h1, hc => by
    obtain ⟨rfl, rfl, rfl, h4⟩ := hf
    have e1 := (hl.op _).trans h4
    rw [show l + 1 - l + hK = hK + 1 by omega]
    simp only [Re.forks]
    cases he : eatOp o with
    | true => simpa using Cost.eat (P := P) (N := N) (h := hK) e1 he
    | false =>
      simp only [Bool.false_eq_true, if_false]
      have hp : passOp o = true := by
        rcases ho.2 with h | h
        · rw [he] at h; cases h
        · exact h
      rcases hc with hc | hc
      · simp [Re.null, he] at hc
      · exact .pass e1 hp (hl.next _ _ _ (by omega) hn hK') hc
  | .grp k e, a, b, f, l, n, K, c, hK, ho, hs, hf, hb, hn, hK', hN, h1, hc => by
    obtain ⟨b', f', l', g1, rfl, rfl, rfl, g5, g6, g7⟩ := hf
    have hb' := frag_bounds g1
    have hall : All (fun o => atom o = true) e := (all_mono (fun _ h => h.1) ho)
    have ih := frag_cost hl (e := e) (c := c) (hK := hK + 1) ho hs g1 (by omega) g7 (.here g6 (by simp)) (by omega) (by omega)
      (hc.imp id fun hc => .pass ((hl.op _).trans g6) rfl (hl.next l n K (by omega) hn hK') hc)
    refine (Cost.pass (h := l - a + (hK + 1)) ((hl.op _).trans (opAt_of g5)) rfl (hl.next (l + 1) f' f' (by omega) (by unfold nextAt; rw [g5]; rfl) (frag_first hall g1)) ih).mono (by omega)
  | .alt e1 e2, a, b, f, l, n, K, c, hK, ho, hs, hf, hb, hn, hK', hN, h1, hc => by
    obtain ⟨m, b', f1, l1, f2, l2, g1, g2, rfl, rfl, rfl, g5, g6, g7, g8⟩ := hf
    have hb1 := frag_bounds g1
    have hb2 := frag_bounds g2
    have hall : All (fun o => atom o = true) e2 := (all_mono (fun _ h => h.1) ho.2)
    simp only [Re.strict, Bool.and_eq_true] at hs
    have hK2 : Sk h l K := .nop g6 hn hK'
    have hc' : (e1.null eatOp = false ∧ e2.null eatOp = false) ∨ Cost P N hK K c := by
      rcases hc with hc | hc
      · simp only [Re.null, Bool.or_eq_false_iff] at hc; exact .inl hc
      · exact .inr hc
    have i1 := frag_cost hl (c := c) (hK := hK) ho.1 hs.1 g1 (by omega) g7 hK2 (by omega) h1 (hc'.imp (·.1) id)
    have i2 := frag_cost hl (c := c) (hK := hK) ho.2 hs.2 g2 (by omega) g8 hK2 (by omega) h1 (hc'.imp (·.2) id)
    exact (Cost.or (h := l - m + hK) ((hl.op _).trans (opAt_of g5)) (hl.next (l + 1) f2 f2 (by omega) (by unfold nextAt; rw [g5]; rfl) (frag_first hall g2))
      i2 (i1.mono (by omega))).mono (by omega)
  | .cat e1 e2, a, b, f, l, n, K, c, hK, ho, hs, hf, hb, hn, hK', hN, h1, hc => by
    obtain ⟨m, l1, f2, g1, g2, g3⟩ := hf
    have hb1 := frag_bounds g1
    have hb2 := frag_bounds g2
    have hall : All (fun o => atom o = true) e2 := (all_mono (fun _ h => h.1) ho.2)
    simp only [Re.strict, Bool.and_eq_true] at hs
    have i1 := frag_cost hl (c := e2.forks eatOp c) (hK := b - m + hK) ho.1 hs.1 g1 (by omega) g3 (frag_first hall g2) (by omega) (by omega) (by
      cases hn1 : e1.null eatOp with
      | false => exact .inl rfl
      | true =>
        right
        refine frag_cost hl ho.2 hs.2 g2 hb hn hK' (by omega) h1 (hc.imp (fun hc => ?_) id)
        simpa [Re.null, hn1] using hc)
    exact i1.mono (by omega)
  | .star e, a, b, f, l, n, K, c, hK, ho, hs, hf, hb, hn, hK', hN, h1, hc => by
    obtain ⟨b', f1, l1, g1, rfl, rfl, rfl, g4, g5⟩ := hf
    have hb1 := frag_bounds g1
    simp only [Re.strict, Bool.and_eq_true, Bool.not_eq_true'] at hs
    rcases hc with hc | hc
    · simp [Re.null] at hc
    · have i1 := frag_cost hl (e := e) (c := 0) (hK := hK + 1) ho hs.2 g1 (by omega) g5 (.here g4 (by simp)) (by omega) (by omega) (.inl hs.1)
      exact (Cost.or (h := hK) ((hl.op _).trans g4) (hl.next _ _ _ (by omega) hn hK') hc (i1.mono (by omega))).mono (by omega)
  | .plus e, a, b, f, l, n, K, c, hK, ho, hs, hf, hb, hn, hK', hN, h1, hc => by
    obtain ⟨b', l1, g1, rfl, rfl, g4, g5⟩ := hf
    have hb1 := frag_bounds g1
    simp only [Re.strict, Bool.and_eq_true, Bool.not_eq_true'] at hs
    exact (frag_cost hl (e := e) (c := 0) (hK := hK + 1) ho hs.2 g1 (by omega) g5 (.here g4 (by simp)) (by omega) (by omega) (.inl hs.1)).mono (by omega)
  | .opt e, a, b, f, l, n, K, c, hK, ho, hs, hf, hb, hn, hK', hN, h1, hc => by
    obtain ⟨b', f1, l1, g1, rfl, rfl, rfl, g4, g5, g6⟩ := hf
    have hb1 := frag_bounds g1
    rcases hc with hc | hc
    · simp [Re.null] at hc
    · have hK2 : Sk h (f + 1) K := .nop g5 hn hK'
      have i1 := frag_cost hl (e := e) (c := c) (hK := hK) ho hs g1 (by omega) g6 hK2 (by omega) (by omega) (.inr hc)
      exact (Cost.or (h := hK) ((hl.op _).trans (opAt_of g4)) (hl.next f (f + 1) K (by omega) (by unfold nextAt; rw [g4]; rfl) hK2) hc (i1.mono (by omega))).mono (by omega)

theorem loop_places (hl : Linked h P B) {e : Re Op} {a l n K c hK f1 l1 : Nat} (g1 : Frag h e a l f1 l1) (hb : l + 1 ≤ B) (hn : nextAt h l = some n) (hK' : Sk h n K) (hN : l + 1 - a + hK ≤ N) (h1 : 1 ≤ hK) (hc : Cost P N hK K c)
    (ho : All calm e) (hs : (!e.null eatOp && e.strict eatOp) = true) (g4 : opAt h l = some (.or f1)) (g5 : nextAt h l1 = some l)
    (ih : Cost P N (hK + 1) l (c + e.forks eatOp 0 + 1) → ∃ L : List (Nat × Nat), L.map (·.2) = e.places eatOp (c + e.forks eatOp 0 + 1) ∧ (∀ x ∈ L, Cost P N N x.1 x.2) ∧
      ∀ pc o, a ≤ pc → pc < l → opAt h pc = some o → eatOp o = true → ∃ k, nextAt P.insts pc = some k ∧ ((e.open eatOp = true ∧ k = l) ∨ k ∈ L.map (·.1))) :
    ∃ L : List (Nat × Nat), L.map (·.2) = e.places eatOp (c + e.forks eatOp 0 + 1) ++ (if e.open eatOp then [c + e.forks eatOp 0 + 1] else []) ∧ (∀ x ∈ L, Cost P N N x.1 x.2) ∧
      ∀ pc o, a ≤ pc → pc < l + 1 → opAt h pc = some o → eatOp o = true → ∃ k, nextAt P.insts pc = some k ∧ ((false = true ∧ k = K) ∨ k ∈ L.map (·.1)) := by
  have hb1 := frag_bounds g1
  simp only [Bool.and_eq_true, Bool.not_eq_true'] at hs
  have i1 := frag_cost (N := N) hl (e := e) (c := 0) (hK := hK + 1) ho hs.2 g1 (by omega) g5 (.here g4 (by simp)) (by omega) (by omega) (.inl hs.1)
  have hcl : Cost P N (hK + 1) l (c + e.forks eatOp 0 + 1) := Cost.or (h := hK) ((hl.op _).trans g4) (hl.next _ _ _ (by omega) hn hK') hc (i1.mono (by omega))
  obtain ⟨L, j1, j2, j3⟩ := ih hcl
  refine ⟨L ++ (if e.open eatOp then [(l, c + e.forks eatOp 0 + 1)] else []), ?_, ?_, fun pc o' p1 p2 p3 p4 => ?_⟩
  · rw [List.map_append, j1]; split <;> rfl
  · intro x hx
    rcases List.mem_append.1 hx with hx | hx
    · exact j2 x hx
    · split at hx
      · obtain rfl := List.mem_singleton.1 hx
        exact hcl.mono (by omega)
      · cases hx
  · by_cases h5 : pc = l
    · subst h5; rw [g4] at p3; cases p3; cases p4
    obtain ⟨x, q1, q2⟩ := j3 pc o' p1 (by omega) p3 p4
    refine ⟨x, q1, .inr ?_⟩
    rcases q2 with ⟨q2, rfl⟩ | q2
    · rw [if_pos q2]; simp
    · rw [List.map_append]; exact List.mem_append_left _ q2

/-- The places of an expression are those reached over a character, together with what follows the
expression if it is open. -/
theorem frag_places (hl : Linked h P B) : ∀ {e : Re Op} {a b f l n K c hK : Nat}, All calm e → e.strict eatOp = true → Frag h e a b f l → b ≤ B →
    nextAt h l = some n → Sk h n K → b - a + hK ≤ N → 1 ≤ hK → Cost P N hK K c →
    ∃ L : List (Nat × Nat), L.map (·.2) = e.places eatOp c ∧ (∀ x ∈ L, Cost P N N x.1 x.2) ∧
      ∀ pc o, a ≤ pc → pc < b → opAt h pc = some o → eatOp o = true → ∃ k, nextAt P.insts pc = some k ∧ ((e.open eatOp = true ∧ k = K) ∨ k ∈ L.map (·.1))
  | .one o, a, b, f, l, n, K, c, hK, ho, hs, hf, hb, hn, hK', hN, h1, hc => by
    obtain ⟨rfl, rfl, rfl, h4⟩ := hf
    refine ⟨[], rfl, by simp, fun pc o' p1 p2 p3 p4 => ?_⟩
    obtain rfl : pc = l := by omega
    rw [h4] at p3
    cases p3
    exact ⟨K, hl.next _ _ _ (by omega) hn hK', .inl ⟨p4, rfl⟩⟩
  | .grp k e, a, b, f, l, n, K, c, hK, ho, hs, hf, hb, hn, hK', hN, h1, hc => by
    obtain ⟨b', f', l', g1, rfl, rfl, rfl, g5, g6, g7⟩ := hf
    have hb' := frag_bounds g1
    have hcl : Cost P N (hK + 1) l c := .pass ((hl.op _).trans g6) rfl (hl.next l n K (by omega) hn hK') hc
    obtain ⟨L, i1, i2, i3⟩ := frag_places hl (e := e) (c := c) (hK := hK + 1) ho hs g1 (by omega) g7 (.here g6 (by simp)) (by omega) (by omega) hcl
    refine ⟨L ++ (if e.open eatOp then [(l, c)] else []), ?_, ?_, fun pc o' p1 p2 p3 p4 => ?_⟩
    · rw [List.map_append, i1, Re.places]; split <;> rfl
    · intro x hx
      rcases List.mem_append.1 hx with hx | hx
      · exact i2 x hx
      · split at hx
        · obtain rfl := List.mem_singleton.1 hx
          exact hcl.mono (by omega)
        · cases hx
    · by_cases h5 : pc = l
      · subst h5; rw [g6] at p3; cases p3; cases p4
      by_cases h6 : pc = l + 1
      · subst h6; rw [opAt_of g5] at p3; cases p3; cases p4
      obtain ⟨x, q1, q2⟩ := i3 pc o' p1 (by omega) p3 p4
      refine ⟨x, q1, .inr ?_⟩
      rcases q2 with ⟨q2, rfl⟩ | q2
      · rw [if_pos q2]; simp
      · rw [List.map_append]; exact List.mem_append_left _ q2
  | .alt e1 e2, a, b, f, l, n, K, c, hK, ho, hs, hf, hb, hn, hK', hN, h1, hc => by
    obtain ⟨m, b', f1, l1, f2, l2, g1, g2, rfl, rfl, rfl, g5, g6, g7, g8⟩ := hf
    have hb1 := frag_bounds g1
    have hb2 := frag_bounds g2
    simp only [Re.strict, Bool.and_eq_true] at hs
    have hK2 : Sk h l K := .nop g6 hn hK'
    obtain ⟨L1, i1, i2, i3⟩ := frag_places hl (c := c) (hK := hK) ho.1 hs.1 g1 (by omega) g7 hK2 (by omega) h1 hc
    obtain ⟨L2, j1, j2, j3⟩ := frag_places hl (c := c) (hK := hK) ho.2 hs.2 g2 (by omega) g8 hK2 (by omega) h1 hc
    refine ⟨L1 ++ L2, by rw [List.map_append, i1, j1]; rfl, fun x hx => (List.mem_append.1 hx).elim (i2 x) (j2 x), fun pc o' p1 p2 p3 p4 => ?_⟩
    by_cases h5 : pc = l
    · subst h5; rw [g6] at p3; cases p3; cases p4
    by_cases h6 : pc = l + 1
    · subst h6; rw [opAt_of g5] at p3; cases p3; cases p4
    rw [List.map_append]
    simp only [Re.open, Bool.or_eq_true, List.mem_append]
    by_cases h7 : pc < m
    · obtain ⟨x, q1, q2⟩ := i3 pc o' p1 h7 p3 p4
      refine ⟨x, q1, ?_⟩
      rcases q2 with ⟨q2, q3⟩ | q2
      · exact .inl ⟨.inl q2, q3⟩
      · exact .inr (.inl q2)
    · obtain ⟨x, q1, q2⟩ := j3 pc o' (by omega) (by omega) p3 p4
      refine ⟨x, q1, ?_⟩
      rcases q2 with ⟨q2, q3⟩ | q2
      · exact .inl ⟨.inr q2, q3⟩
      · exact .inr (.inr q2)
  | .cat e1 e2, a, b, f, l, n, K, c, hK, ho, hs, hf, hb, hn, hK', hN, h1, hc => by
    obtain ⟨m, l1, f2, g1, g2, g3⟩ := hf
    have hb1 := frag_bounds g1
    have hb2 := frag_bounds g2
    have hall : All (fun o => atom o = true) e2 := (all_mono (fun _ h => h.1) ho.2)
    simp only [Re.strict, Bool.and_eq_true] at hs
    have hc2 := frag_cost hl (c := c) ho.2 hs.2 g2 hb hn hK' (by omega) h1 (.inr hc)
    obtain ⟨L1, i1, i2, i3⟩ := frag_places hl (c := e2.forks eatOp c) (hK := b - m + hK) ho.1 hs.1 g1 (by omega) g3 (frag_first hall g2) (by omega) (by omega) hc2
    obtain ⟨L2, j1, j2, j3⟩ := frag_places hl (c := c) (hK := hK) ho.2 hs.2 g2 (by omega) hn hK' (by omega) h1 hc
    refine ⟨L1 ++ (if e1.open eatOp then [(f2, e2.forks eatOp c)] else []) ++ L2, ?_, ?_, fun pc o' p1 p2 p3 p4 => ?_⟩
    · rw [List.map_append, List.map_append, i1, j1, Re.places]; split <;> rfl
    · intro x hx
      rcases List.mem_append.1 hx with hx | hx
      · rcases List.mem_append.1 hx with hx | hx
        · exact i2 x hx
        · split at hx
          · obtain rfl := List.mem_singleton.1 hx
            exact hc2.mono (by omega)
          · cases hx
      · exact j2 x hx
    rw [List.map_append, List.map_append]
    simp only [List.mem_append]
    by_cases h7 : pc < m
    · obtain ⟨x, q1, q2⟩ := i3 pc o' p1 h7 p3 p4
      refine ⟨x, q1, .inr (.inl ?_)⟩
      rcases q2 with ⟨q2, rfl⟩ | q2
      · rw [if_pos q2]; simp
      · exact .inl q2
    · obtain ⟨x, q1, q2⟩ := j3 pc o' (by omega) (by omega) p3 p4
      refine ⟨x, q1, ?_⟩
      rcases q2 with ⟨q2, q3⟩ | q2
      · exact .inl ⟨q2, q3⟩
      · exact .inr (.inr q2)
  | .star e, a, b, f, l, n, K, c, hK, ho, hs, hf, hb, hn, hK', hN, h1, hc => by
    obtain ⟨b', f1, l1, g1, rfl, rfl, rfl, g4, g5⟩ := hf
    have hb1 := frag_bounds g1
    exact loop_places hl g1 hb hn hK' hN h1 hc ho hs g4 g5 (fun hcl => by
      simp only [Re.strict, Bool.and_eq_true] at hs
      exact frag_places hl (e := e) ho hs.2 g1 (by omega) g5 (.here g4 (by simp)) (by omega) (by omega) hcl)
  | .plus e, a, b, f, l, n, K, c, hK, ho, hs, hf, hb, hn, hK', hN, h1, hc => by
    obtain ⟨b', l1, g1, rfl, rfl, g4, g5⟩ := hf
    have hb1 := frag_bounds g1
    exact loop_places hl g1 hb hn hK' hN h1 hc ho hs g4 g5 (fun hcl => by
      simp only [Re.strict, Bool.and_eq_true] at hs
      exact frag_places hl (e := e) ho hs.2 g1 (by omega) g5 (.here g4 (by simp)) (by omega) (by omega) hcl)
  | .opt e, a, b, f, l, n, K, c, hK, ho, hs, hf, hb, hn, hK', hN, h1, hc => by
    obtain ⟨b', f1, l1, g1, rfl, rfl, rfl, g4, g5, g6⟩ := hf
    have hb1 := frag_bounds g1
    have hK2 : Sk h (f + 1) K := .nop g5 hn hK'
    obtain ⟨L, i1, i2, i3⟩ := frag_places hl (e := e) (c := c) (hK := hK) ho hs g1 (by omega) g6 hK2 (by omega) (by omega) hc
    refine ⟨L, i1, i2, fun pc o' p1 p2 p3 p4 => ?_⟩
    by_cases h5 : pc = f
    · subst h5; rw [opAt_of g4] at p3; cases p3; cases p4
    by_cases h6 : pc = f + 1
    · subst h6; rw [g5] at p3; cases p3; cases p4
    exact i3 pc o' p1 (by omega) p3 p4
end

/-! ### the groups that are open -/

def size : Re Op → Nat
  | .one _ => 1
  | .grp _ e => size e + 2
  | .cat a b => size a + size b
  | .alt a b => size a + size b + 2
  | .star e => size e + 1
  | .plus e => size e + 1
  | .opt e => size e + 2

/-- The groups begun and not ended at the instruction `pc` of an expression at `a`. -/
def openAt : Re Op → Nat → Nat → List Nat
  | .one _, _, _ => []
  | .grp k e, a, pc => if pc < a + size e then k :: openAt e a pc else if pc = a + size e then [k] else []
  | .cat x y, a, pc => if pc < a + size x then openAt x a pc else openAt y (a + size x) pc
  | .alt x y, a, pc => if pc < a + size x then openAt x a pc else if pc < a + size x + size y then openAt y (a + size x) pc else []
  | .star e, a, pc => if pc < a + size e then openAt e a pc else []
  | .plus e, a, pc => if pc < a + size e then openAt e a pc else []
  | .opt e, a, pc => if pc < a + size e then openAt e a pc else []

/-- Open groups are only left, except through a left parenthesis, and a right one is inside its group. -/
def Keeps (P : Prog) (A : Nat → List Nat) (pc : Nat) : Prop :=
  ∃ o k, opAt P.insts pc = some o ∧ nextAt P.insts pc = some k ∧
    match o with
    | .lbra x => ∀ y ∈ A k, y = x ∨ y ∈ A pc
    | .rbra x => x ∈ A pc ∧ ∀ y ∈ A k, y ∈ A pc
    | .or r => (∀ y ∈ A k, y ∈ A pc) ∧ ∀ y ∈ A r, y ∈ A pc
    | _ => ∀ y ∈ A k, y ∈ A pc

theorem frag_size {h : List Inst} : ∀ {e : Re Op} {a b f l : Nat}, Frag h e a b f l → b = a + size e
  | .one o, a, b, f, l, hf => hf.2.2.1
  | .grp k e, a, b, f, l, hf => by
    obtain ⟨b', f', l', g1, rfl, -⟩ := hf
    have := frag_size g1
    simp only [size]; omega
  | .cat x y, a, b, f, l, hf => by
    obtain ⟨m, l1, f2, g1, g2, -⟩ := hf
    have := frag_size g1
    have := frag_size g2
    simp only [size]; omega
  | .alt x y, a, b, f, l, hf => by
    obtain ⟨m, b', f1, l1, f2, l2, g1, g2, rfl, -⟩ := hf
    have := frag_size g1
    have := frag_size g2
    simp only [size]; omega
  | .star e, a, b, f, l, hf => by
    obtain ⟨b', f1, l1, g1, rfl, -⟩ := hf
    have := frag_size g1
    simp only [size]; omega
  | .plus e, a, b, f, l, hf => by
    obtain ⟨b', l1, g1, rfl, -⟩ := hf
    have := frag_size g1
    simp only [size]; omega
  | .opt e, a, b, f, l, hf => by
    obtain ⟨b', f1, l1, g1, rfl, -⟩ := hf
    have := frag_size g1
    simp only [size]; omega

/-- At the entry of an expression no group of it is open. -/
theorem open_first {h : List Inst} : ∀ {e : Re Op} {a b f l : Nat}, Frag h e a b f l → openAt e a f = []
  | .one o, a, b, f, l, hf => rfl
  | .grp k e, a, b, f, l, hf => by
    obtain ⟨b', f', l', g1, rfl, rfl, -⟩ := hf
    have := frag_size g1
    rw [openAt, if_neg (by omega), if_neg (by omega)]
  | .cat x y, a, b, f, l, hf => by
    obtain ⟨m, l1, f2, g1, g2, -⟩ := hf
    have := frag_size g1
    have := frag_bounds g1
    rw [openAt, if_pos (by omega)]
    exact open_first g1
  | .alt x y, a, b, f, l, hf => by
    obtain ⟨m, b', f1, l1, f2, l2, g1, g2, rfl, rfl, -⟩ := hf
    have := frag_size g1
    have := frag_size g2
    rw [openAt, if_neg (by omega), if_neg (by omega)]
  | .star e, a, b, f, l, hf => by
    obtain ⟨b', f1, l1, g1, rfl, rfl, -⟩ := hf
    have := frag_size g1
    rw [openAt, if_neg (by omega)]
  | .plus e, a, b, f, l, hf => by
    obtain ⟨b', l1, g1, rfl, -⟩ := hf
    have := frag_size g1
    have := frag_bounds g1
    rw [openAt, if_pos (by omega)]
    exact open_first g1
  | .opt e, a, b, f, l, hf => by
    obtain ⟨b', f1, l1, g1, rfl, rfl, -⟩ := hf
    have := frag_size g1
    rw [openAt, if_neg (by omega)]

section
variable {P : Prog} {h : List Inst} {B : Nat} {A : Nat → List Nat}

theorem keeps_plain {pc k : Nat} {o : Op} (ho : opAt P.insts pc = some o) (hn : nextAt P.insts pc = some k) (h1 : ∀ x, o ≠ .lbra x) (h2 : ∀ x, o ≠ .rbra x) (h3 : ∀ x, o ≠ .or x)
    (h : ∀ y ∈ A k, y ∈ A pc) : Keeps P A pc := by
  refine ⟨o, k, ho, hn, ?_⟩
  cases o with
  | lbra x => exact absurd rfl (h1 x)
  | rbra x => exact absurd rfl (h2 x)
  | or x => exact absurd rfl (h3 x)
  | _ => exact h

theorem frag_keeps (hl : Linked h P B) : ∀ {e : Re Op} {a b f l n K : Nat} {O : List Nat}, All (fun o => atom o = true) e → Frag h e a b f l → b ≤ B →
    nextAt h l = some n → Sk h n K → (∀ pc, a ≤ pc → pc < b → A pc = O ++ openAt e a pc) → (∀ y ∈ A K, y ∈ O) → ∀ pc, a ≤ pc → pc < b → Keeps P A pc
  | .one o, a, b, f, l, n, K, O, ho, hf, hb, hn, hK, hA, hO => by
    obtain ⟨rfl, rfl, rfl, h4⟩ := hf
    intro pc p1 p2
    obtain rfl : pc = l := by omega
    refine keeps_plain ((hl.op _).trans h4) (hl.next _ _ _ (by omega) hn hK) ?_ ?_ ?_ ?_
    · rintro x rfl; cases ho
    · rintro x rfl; cases ho
    · rintro x rfl; cases ho
    · intro y hy; rw [hA pc p1 p2]; exact List.mem_append_left _ (hO y hy)
  | .grp k e, a, b, f, l, n, K, O, ho, hf, hb, hn, hK, hA, hO => by
    obtain ⟨b', f', l', g1, rfl, rfl, rfl, g5, g6, g7⟩ := hf
    have hsz := frag_size g1
    have hbd := frag_bounds g1
    have hAl : A l = O ++ [k] := by rw [hA l (by omega) (by omega), openAt, if_neg (by omega), if_pos (by omega)]
    have hAi : ∀ pc, a ≤ pc → pc < l → A pc = (O ++ [k]) ++ openAt e a pc := by
      intro pc p1 p2
      rw [hA pc p1 (by omega), openAt, if_pos (by omega), List.append_assoc]; rfl
    have hAf : A f' = O ++ [k] := by
      have := open_first g1
      rw [hAi f' hbd.1 (by omega), this, List.append_nil]
    intro pc p1 p2
    by_cases h5 : pc = l
    · subst h5
      refine ⟨_, K, (hl.op _).trans g6, hl.next _ n K (by omega) hn hK, ?_⟩
      simp only [hAl]
      exact ⟨by simp, fun y hy => List.mem_append_left _ (hO y hy)⟩
    by_cases h6 : pc = l + 1
    · subst h6
      refine ⟨_, f', (hl.op _).trans (opAt_of g5), hl.next (l + 1) f' f' (by omega) (by unfold nextAt; rw [g5]; rfl) (frag_first (e := e) ho g1), ?_⟩
      simp only [hAf]
      intro y hy
      rw [hA (l + 1) (by omega) (by omega)]
      simp only [List.mem_append, List.mem_singleton] at hy ⊢
      tauto
    exact frag_keeps hl (e := e) ho g1 (by omega) g7 (.here g6 (by simp)) hAi (by rw [hAl]; exact fun y h => h) pc p1 (by omega)
  | .alt e1 e2, a, b, f, l, n, K, O, ho, hf, hb, hn, hK, hA, hO => by
    obtain ⟨m, b', f1, l1, f2, l2, g1, g2, rfl, rfl, rfl, g5, g6, g7, g8⟩ := hf
    have hs1 := frag_size g1
    have hs2 := frag_size g2
    have hb1 := frag_bounds g1
    have hb2 := frag_bounds g2
    have hK2 : Sk h l K := .nop g6 hn hK
    have hA1 : ∀ pc, a ≤ pc → pc < m → A pc = O ++ openAt e1 a pc := by
      intro pc p1 p2
      rw [hA pc p1 (by omega), openAt, if_pos (by omega)]
    have hA2 : ∀ pc, m ≤ pc → pc < l → A pc = O ++ openAt e2 m pc := by
      intro pc p1 p2
      rw [hA pc (by omega) (by omega), openAt, if_neg (by omega), if_pos (by omega), hs1]
    have hAl : ∀ pc, l ≤ pc → pc < l + 2 → A pc = O := by
      intro pc p1 p2
      rw [hA pc (by omega) (by omega), openAt, if_neg (by omega), if_neg (by omega), List.append_nil]
    have hf1 : A f1 = O := by rw [hA1 f1 hb1.1 hb1.2.1, open_first g1, List.append_nil]
    have hf2 : A f2 = O := by rw [hA2 f2 hb2.1 hb2.2.1, open_first g2, List.append_nil]
    intro pc p1 p2
    by_cases h5 : pc = l
    · subst h5
      exact keeps_plain ((hl.op _).trans g6) (hl.next _ n K (by omega) hn hK) (by simp) (by simp) (by simp) (by rw [hAl pc (by omega) (by omega)]; exact hO)
    by_cases h6 : pc = l + 1
    · subst h6
      refine ⟨_, f2, (hl.op _).trans (opAt_of g5), hl.next (l + 1) f2 f2 (by omega) (by unfold nextAt; rw [g5]; rfl) (frag_first ho.2 g2), ?_⟩
      simp only [hf1, hf2, hAl (l + 1) (by omega) (by omega)]
      exact ⟨fun _ h => h, fun _ h => h⟩
    by_cases h7 : pc < m
    · exact frag_keeps hl ho.1 g1 (by omega) g7 hK2 hA1 hO pc p1 h7
    · exact frag_keeps hl ho.2 g2 (by omega) g8 hK2 hA2 hO pc (by omega) (by omega)
  | .cat e1 e2, a, b, f, l, n, K, O, ho, hf, hb, hn, hK, hA, hO => by
    obtain ⟨m, l1, f2, g1, g2, g3⟩ := hf
    have hs1 := frag_size g1
    have hs2 := frag_size g2
    have hb1 := frag_bounds g1
    have hb2 := frag_bounds g2
    have hA1 : ∀ pc, a ≤ pc → pc < m → A pc = O ++ openAt e1 a pc := by
      intro pc p1 p2
      rw [hA pc p1 (by omega), openAt, if_pos (by omega)]
    have hA2 : ∀ pc, m ≤ pc → pc < b → A pc = O ++ openAt e2 m pc := by
      intro pc p1 p2
      rw [hA pc (by omega) (by omega), openAt, if_neg (by omega), hs1]
    have hf2 : A f2 = O := by rw [hA2 f2 hb2.1 hb2.2.1, open_first g2, List.append_nil]
    intro pc p1 p2
    by_cases h7 : pc < m
    · exact frag_keeps hl ho.1 g1 (by omega) g3 (frag_first ho.2 g2) hA1 (by rw [hf2]; exact fun _ h => h) pc p1 h7
    · exact frag_keeps hl ho.2 g2 (by omega) hn hK hA2 hO pc (by omega) (by omega)
  | .star e, a, b, f, l, n, K, O, ho, hf, hb, hn, hK, hA, hO => by
    obtain ⟨b', f1, l1, g1, rfl, rfl, rfl, g4, g5⟩ := hf
    have hs1 := frag_size g1
    have hb1 := frag_bounds g1
    have hA1 : ∀ pc, a ≤ pc → pc < l → A pc = O ++ openAt e a pc := by
      intro pc p1 p2
      rw [hA pc p1 (by omega), openAt, if_pos (by omega)]
    have hAl : A l = O := by rw [hA l (by omega) (by omega), openAt, if_neg (by omega), List.append_nil]
    have hf1 : A f1 = O := by rw [hA1 f1 hb1.1 hb1.2.1, open_first g1, List.append_nil]
    intro pc p1 p2
    by_cases h5 : pc = l
    · subst h5
      refine ⟨_, K, (hl.op _).trans g4, hl.next _ n K (by omega) hn hK, ?_⟩
      simp only [hf1, hAl]
      exact ⟨hO, fun _ h => h⟩
    exact frag_keeps hl (e := e) ho g1 (by omega) g5 (.here g4 (by simp)) hA1 (by rw [hAl]; exact fun _ h => h) pc p1 (by omega)
  | .plus e, a, b, f, l, n, K, O, ho, hf, hb, hn, hK, hA, hO => by
    obtain ⟨b', l1, g1, rfl, rfl, g4, g5⟩ := hf
    have hs1 := frag_size g1
    have hb1 := frag_bounds g1
    have hA1 : ∀ pc, a ≤ pc → pc < l → A pc = O ++ openAt e a pc := by
      intro pc p1 p2
      rw [hA pc p1 (by omega), openAt, if_pos (by omega)]
    have hAl : A l = O := by rw [hA l (by omega) (by omega), openAt, if_neg (by omega), List.append_nil]
    have hf1 : A f = O := by rw [hA1 f hb1.1 hb1.2.1, open_first g1, List.append_nil]
    intro pc p1 p2
    by_cases h5 : pc = l
    · subst h5
      refine ⟨_, K, (hl.op _).trans g4, hl.next _ n K (by omega) hn hK, ?_⟩
      simp only [hf1, hAl]
      exact ⟨hO, fun _ h => h⟩
    exact frag_keeps hl (e := e) ho g1 (by omega) g5 (.here g4 (by simp)) hA1 (by rw [hAl]; exact fun _ h => h) pc p1 (by omega)
  | .opt e, a, b, f, l, n, K, O, ho, hf, hb, hn, hK, hA, hO => by
    obtain ⟨b', f1, l1, g1, rfl, rfl, rfl, g4, g5, g6⟩ := hf
    have hs1 := frag_size g1
    have hb1 := frag_bounds g1
    have hK2 : Sk h (f + 1) K := .nop g5 hn hK
    have hA1 : ∀ pc, a ≤ pc → pc < f → A pc = O ++ openAt e a pc := by
      intro pc p1 p2
      rw [hA pc p1 (by omega), openAt, if_pos (by omega)]
    have hAl : ∀ pc, f ≤ pc → pc < f + 2 → A pc = O := by
      intro pc p1 p2
      rw [hA pc (by omega) (by omega), openAt, if_neg (by omega), List.append_nil]
    have hf1 : A f1 = O := by rw [hA1 f1 hb1.1 hb1.2.1, open_first g1, List.append_nil]
    intro pc p1 p2
    by_cases h5 : pc = f
    · subst h5
      refine ⟨_, K, (hl.op _).trans (opAt_of g4), hl.next pc (pc + 1) K (by omega) (by unfold nextAt; rw [g4]; rfl) hK2, ?_⟩
      simp only [hf1, hAl pc (by omega) (by omega)]
      exact ⟨hO, fun _ h => h⟩
    by_cases h6 : pc = f + 1
    · subst h6
      exact keeps_plain ((hl.op _).trans g5) (hl.next _ n K (by omega) hn hK) (by simp) (by simp) (by simp) (by rw [hAl (f + 1) (by omega) (by omega)]; exact hO)
    exact frag_keeps hl (e := e) ho g1 (by omega) g6 hK2 hA1 hO pc p1 (by omega)
end

end Verif.Regex
