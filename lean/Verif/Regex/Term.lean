import Verif.Regex.TermModel
import Verif.Regex.WorkProps
/- C163: matching ends, for every compiled pattern and every text. -/
namespace Verif.Regex
open Verif.Utf8 (Byte casefold)
open Verif.Utf8.Spec (text Text)
open Spec (Tok Re G Sur Spells)

/-! ### the instructions lead on -/

/-- Following `next` inside an expression comes to its end. -/
theorem frag_rank {h : List Inst} : ∀ {e : Re Op} {a b f l : Nat}, Frag h e a b f l → ∀ c, ∃ ρ : Nat → Nat, (∀ i, a ≤ i → i < b → c < ρ i ∧ ρ i ≤ c + (b - a)) ∧
    ∀ i n, a ≤ i → i < b → i ≠ l → nextAt h i = some n → a ≤ n ∧ n < b ∧ ρ n < ρ i
  | .one o, a, b, f, l, hf, c => by
    obtain ⟨rfl, rfl, rfl, h4⟩ := hf
    exact ⟨fun _ => c + 1, fun i _ _ => (by simp only; omega), fun i n _ _ _ _ => by omega⟩
  | .grp k e, a, b, f, l, hf, c => by
    obtain ⟨b', f', l', h1, rfl, rfl, rfl, h5, h6, h7⟩ := hf
    have hb := frag_bounds h1
    obtain ⟨ρ, r1, r2⟩ := frag_rank h1 (c + 1)
    refine ⟨fun i => if i < l then ρ i else if i = l then c + 1 else c + (l + 2 - a), fun i i1 i2 => ?_, fun i n i1 i2 i3 hn => ?_⟩
    · by_cases hi : i < l
      · have := r1 i i1 hi
        simp only [hi, if_true]; omega
      · simp only [hi, if_false]; split <;> omega
    · by_cases hi : i < l
      · by_cases he : i = l'
        · subst he
          rw [h7] at hn
          cases hn
          have := r1 i i1 hi
          simp only [hi, if_true, Nat.lt_irrefl, if_false]; omega
        · obtain ⟨q1, q2, q3⟩ := r2 i n i1 hi he hn
          simp only [hi, q2, if_true]; omega
      · obtain rfl : i = l + 1 := by omega
        have : n = f' := by unfold nextAt at hn; rw [h5] at hn; simpa using hn.symm
        subst this
        have := r1 n hb.1 hb.2.1
        simp only [hb.2.1, if_true, show ¬ l + 1 < l by omega, show ¬ l + 1 = l by omega, if_false]; omega
  | .alt e1 e2, a, b, f, l, hf, c => by
    obtain ⟨m, b', f1, l1, f2, l2, h1, h2, rfl, rfl, rfl, h5, h6, h7, h8⟩ := hf
    have hb1 := frag_bounds h1
    have hb2 := frag_bounds h2
    obtain ⟨ρ1, r1, r2⟩ := frag_rank h1 (c + 1)
    obtain ⟨ρ2, s1, s2⟩ := frag_rank h2 (c + 1)
    refine ⟨fun i => if i < m then ρ1 i else if i < l then ρ2 i else if i = l then c + 1 else c + (l + 2 - a), fun i i1 i2 => ?_, fun i n i1 i2 i3 hn => ?_⟩
    · by_cases hm : i < m
      · have := r1 i i1 hm
        simp only [hm, if_true]; omega
      · by_cases hi : i < l
        · have := s1 i (by omega) hi
          simp only [hm, hi, if_true, if_false]; omega
        · simp only [hm, hi, if_false]; split <;> omega
    · have hml : m ≤ l := by omega
      by_cases hm : i < m
      · by_cases he : i = l1
        · subst he
          rw [h7] at hn
          cases hn
          have := r1 i i1 hm
          simp only [hm, if_true, Nat.lt_irrefl, show ¬ l < m by omega, if_false]; omega
        · obtain ⟨q1, q2, q3⟩ := r2 i n i1 hm he hn
          simp only [hm, q2, if_true]; omega
      · by_cases hi : i < l
        · by_cases he : i = l2
          · subst he
            rw [h8] at hn
            cases hn
            have := s1 i (by omega) hi
            simp only [hm, hi, if_true, Nat.lt_irrefl, show ¬ l < m by omega, if_false]; omega
          · obtain ⟨q1, q2, q3⟩ := s2 i n (by omega) hi he hn
            simp only [hm, hi, q2, show ¬ n < m by omega, if_true, if_false]; omega
        · obtain rfl : i = l + 1 := by omega
          have : n = f2 := by unfold nextAt at hn; rw [h5] at hn; simpa using hn.symm
          subst this
          have := s1 n hb2.1 hb2.2.1
          simp only [hb2.2.1, show ¬ n < m by omega, if_true, show ¬ l + 1 < m by omega, show ¬ l + 1 < l by omega, show ¬ l + 1 = l by omega, if_false]; omega
  | .cat e1 e2, a, b, f, l, hf, c => by
    obtain ⟨m, l1, f2, h1, h2, h3⟩ := hf
    have hb1 := frag_bounds h1
    have hb2 := frag_bounds h2
    obtain ⟨ρ2, s1, s2⟩ := frag_rank h2 c
    obtain ⟨ρ1, r1, r2⟩ := frag_rank h1 (c + (b - m))
    refine ⟨fun i => if i < m then ρ1 i else ρ2 i, fun i i1 i2 => ?_, fun i n i1 i2 i3 hn => ?_⟩
    · by_cases hm : i < m
      · have := r1 i i1 hm
        simp only [hm, if_true]; omega
      · have := s1 i (by omega) i2
        simp only [hm, if_false]; omega
    · by_cases hm : i < m
      · by_cases he : i = l1
        · subst he
          rw [h3] at hn
          cases hn
          have := r1 i i1 hm
          have := s1 f2 hb2.1 hb2.2.1
          simp only [hm, if_true, show ¬ f2 < m by omega, if_false]; omega
        · obtain ⟨q1, q2, q3⟩ := r2 i n i1 hm he hn
          simp only [hm, q2, if_true]; omega
      · obtain ⟨q1, q2, q3⟩ := s2 i n (by omega) i2 i3 hn
        simp only [hm, show ¬ n < m by omega, if_false]; omega
  | .star e, a, b, f, l, hf, c => by
    obtain ⟨b', f1, l1, h1, rfl, rfl, rfl, h4, h5⟩ := hf
    exact frag_rank_loop (frag_rank h1) (frag_bounds h1) h5 c
  | .plus e, a, b, f, l, hf, c => by
    obtain ⟨b', l1, h1, rfl, rfl, h4, h5⟩ := hf
    exact frag_rank_loop (frag_rank h1) (frag_bounds h1) h5 c
  | .opt e, a, b, f, l, hf, c => by
    obtain ⟨b', f1, l1, h1, rfl, rfl, rfl, h4, h5, h6⟩ := hf
    have hb := frag_bounds h1
    obtain ⟨ρ, r1, r2⟩ := frag_rank h1 (c + 1)
    refine ⟨fun i => if i < f then ρ i else if i = f + 1 then c + 1 else c + 2, fun i i1 i2 => ?_, fun i n i1 i2 i3 hn => ?_⟩
    · by_cases hi : i < f
      · have := r1 i i1 hi
        simp only [hi, if_true]; omega
      · simp only [hi, if_false]; split <;> omega
    · by_cases hi : i < f
      · by_cases he : i = l1
        · subst he
          rw [h6] at hn
          cases hn
          have := r1 i i1 hi
          simp only [hi, if_true, show ¬ f + 1 < f by omega, if_false]; omega
        · obtain ⟨q1, q2, q3⟩ := r2 i n i1 hi he hn
          simp only [hi, q2, if_true]; omega
      · obtain rfl : i = f := by omega
        have : n = i + 1 := by unfold nextAt at hn; rw [h4] at hn; simpa using hn.symm
        subst this
        simp only [Nat.lt_irrefl, show ¬ i + 1 < i by omega, show ¬ i = i + 1 by omega, if_true, if_false]; omega
where
  frag_rank_loop {h : List Inst} {a b f l1 : Nat} (ih : ∀ c, ∃ ρ : Nat → Nat, (∀ i, a ≤ i → i < b → c < ρ i ∧ ρ i ≤ c + (b - a)) ∧
      ∀ i n, a ≤ i → i < b → i ≠ l1 → nextAt h i = some n → a ≤ n ∧ n < b ∧ ρ n < ρ i) (hb : a ≤ f ∧ f < b ∧ a ≤ l1 ∧ l1 < b ∧ b ≤ h.length) (h5 : nextAt h l1 = some b) (c : Nat) :
      ∃ ρ : Nat → Nat, (∀ i, a ≤ i → i < b + 1 → c < ρ i ∧ ρ i ≤ c + (b + 1 - a)) ∧ ∀ i n, a ≤ i → i < b + 1 → i ≠ b → nextAt h i = some n → a ≤ n ∧ n < b + 1 ∧ ρ n < ρ i := by
    obtain ⟨ρ, r1, r2⟩ := ih (c + 1)
    refine ⟨fun i => if i < b then ρ i else c + 1, fun i i1 i2 => ?_, fun i n i1 i2 i3 hn => ?_⟩
    · by_cases hi : i < b
      · have := r1 i i1 hi
        simp only [hi, if_true]; omega
      · simp only [hi, if_false]; omega
    · have hi : i < b := by omega
      by_cases he : i = l1
      · subst he
        rw [h5] at hn
        cases hn
        have := r1 i i1 hi
        simp only [hi, if_true, Nat.lt_irrefl, if_false]; omega
      · obtain ⟨q1, q2, q3⟩ := r2 i n i1 hi he hn
        simp only [hi, q2, if_true]; omega

/-- Following `next` from an instruction that is not the end. -/
def Ranked (P : Prog) (ρ : Nat → Nat) : Prop := ∀ i I n, P.insts[i]? = some I → I.op ≠ .fin → I.next = some n → ρ n < ρ i ∧ ρ i ≤ P.insts.length

theorem compile_ranked {cap n : Nat} {ic : Bool} {ts : List (Tok Op)} {P : Prog} (h : compile cap ic ts = .ok (P, n)) : ∃ ρ, Ranked P ρ := by
  obtain ⟨hp, e0, l, hf, hopt, -, hcase⟩ := compile_frag h
  obtain ⟨k', hO, -, -⟩ := optimize_inv ⟨rfl, fun _ => rfl, fun _ _ => rfl, fun i hi => by omega⟩ hopt
  have hfin : opAt hp l = some .fin := by
    rcases hcase with ⟨-, -, rfl⟩ | ⟨A, e', -, -, rfl⟩
    · obtain ⟨-, rfl, -, h4⟩ := hf; exact h4
    · obtain ⟨m, l1, f2, -, ⟨-, rfl, -, h4⟩, -⟩ := hf; exact h4
  obtain ⟨ρ, r1, r2⟩ := frag_rank hf 0
  have hsk : ∀ {k K : Nat}, Sk hp k K → k < hp.length → ρ K ≤ ρ k := by
    intro k K hs
    induction hs with
    | here => intro _; exact Nat.le_refl _
    | @nop k n K h1 h2 _ ih =>
      intro hk
      have hne : k ≠ l := by rintro rfl; rw [hfin] at h1; cases h1
      obtain ⟨-, q2, q3⟩ := r2 k n (Nat.zero_le _) hk hne h2
      exact (ih q2).trans (Nat.le_of_lt q3)
  refine ⟨ρ, fun i I m hI hop hn => ?_⟩
  have hi : i < hp.length := by rw [← hO.len]; exact (List.getElem?_eq_some_iff.1 hI).1
  have hne : i ≠ l := by
    rintro rfl
    rw [← hO.op] at hfin
    unfold opAt at hfin
    rw [hI] at hfin
    exact hop (by simpa using hfin)
  have hup := (r1 i (Nat.zero_le _) hi).2
  refine ⟨?_, by rw [hO.len]; omega⟩
  rcases Nat.lt_or_ge i k' with hk | hk
  · obtain ⟨n', K, q1, q2, q3⟩ := hO.done i hk
    obtain ⟨-, q4, q5⟩ := r2 i n' (Nat.zero_le _) hi hne q1
    have : K = m := by
      unfold nextAt at q3
      rw [hI] at q3
      simp only [Option.bind_some] at q3
      rw [hn] at q3
      exact (Option.some.inj q3).symm
    subst this
    have := hsk q2 q4
    omega
  · have hI' := hO.rest i hk
    rw [hI] at hI'
    exact (r2 i m (Nat.zero_le _) hi hne (by unfold nextAt; rw [← hI']; exact hn)).2.2

/-! ### the loops end -/

section
variable {P : Prog} {E : Env} {full : Bool} {cap d cur s : Nat} {ρ : Nat → Nat}

theorem chainT_eq (hR : Ranked P ρ) : ∀ (f : Nat) (pc : Nat) (se : Se) (q : Mid), (0 < f ∧ ρ pc < f) → chainT P E full cap d cur s f pc se q = some (chain P E full cap d cur s f pc se q) := by
  intro f
  induction f with
  | zero => intro pc se q h; omega
  | succ f ih =>
    intro pc se q hf
    rw [chainT, chain]
    cases hI : P.insts[pc]? with
    | none => rfl
    | some i =>
      simp only [Option.bind_some, req]
      cases hE : eff E s q.r q.icase i.op with
      | none => rfl
      | some x =>
        obtain ⟨x1, x2, x3⟩ := x
        simp only [Option.bind_some]
        cases hn : i.next with
        | none =>
          cases x3 with
          | closing k => simp only; cases setSize se k s <;> rfl
          | fork r =>
            simp only
            cases fork cap d cur r se _ with
            | none => rfl
            | some o => cases o <;> rfl
          | _ => rfl
        | some k =>
          by_cases hop : i.op = .fin
          · rw [hop] at hE
            simp only [eff, Option.some.injEq, Prod.mk.injEq] at hE
            obtain ⟨-, -, rfl⟩ := hE
            rfl
          · have hr := hR pc i k hI hop hn
            have ih' : ∀ se q, chainT P E full cap d cur s f k se q = some (chain P E full cap d cur s f k se q) := fun se q => ih k se q (by omega)
            cases x3 with
            | closing j =>
              simp only
              cases setSize se j s with
              | none => rfl
              | some se' => simp only [Option.bind_some, ih']
            | fork r =>
              simp only
              cases fork cap d cur r se _ with
              | none => rfl
              | some o => cases o with
                | full => rfl
                | ok q' => simp only [Option.bind_some, ih']
            | go => simp only [Option.bind_some, ih']
            | opening j => simp only [Option.bind_some, ih']
            | _ => rfl

/-- More rounds make no difference. -/
theorem chain_more (hR : Ranked P ρ) : ∀ (f f' : Nat) (pc : Nat) (se : Se) (q : Mid), (0 < f ∧ ρ pc < f) → f ≤ f' → chain P E full cap d cur s f' pc se q = chain P E full cap d cur s f pc se q := by
  intro f
  induction f with
  | zero => intro f' pc se q h; omega
  | succ f ih =>
    intro f' pc se q hf hle
    obtain ⟨f', rfl⟩ : ∃ x, f' = x + 1 := ⟨f' - 1, by omega⟩
    rw [chain, chain]
    cases hI : P.insts[pc]? with
    | none => rfl
    | some i =>
      simp only [Option.bind_some]
      cases hE : eff E s q.r q.icase i.op with
      | none => rfl
      | some x =>
        obtain ⟨x1, x2, x3⟩ := x
        simp only [Option.bind_some]
        cases hn : i.next with
        | none => rfl
        | some k =>
          by_cases hop : i.op = .fin
          · rw [hop] at hE
            simp only [eff, Option.some.injEq, Prod.mk.injEq] at hE
            obtain ⟨-, -, rfl⟩ := hE
            rfl
          · have hr := hR pc i k hI hop hn
            have ih' : ∀ se q, chain P E full cap d cur s f' k se q = chain P E full cap d cur s f k se q := fun se q => ih f' k se q (by omega) (by omega)
            simp only [Option.bind_some, ih']

theorem chain_lists : ∀ (f pc : Nat) (se : Se) (q q' : Mid), chain P E full cap d cur s f pc se q = some (.ok q') → d + 1 + q.pend.length < cap → q.nl.length < cap →
    d + 1 + q'.pend.length < cap ∧ q'.nl.length < cap := by
  intro f
  induction f with
  | zero => intro _ _ _ _ h; cases h
  | succ f ih =>
    intro pc se q q' h h1 h2
    rw [chain] at h
    obtain ⟨i, -, h⟩ := Option.bind_eq_some_iff.1 h
    obtain ⟨⟨x1, x2, x3⟩, -, h⟩ := Option.bind_eq_some_iff.1 h
    cases x3 with
    | go => obtain ⟨k, -, h⟩ := Option.bind_eq_some_iff.1 h; exact ih _ _ _ _ h h1 h2
    | die => simp only [Option.some.injEq, Out.ok.injEq] at h; subst h; exact ⟨h1, h2⟩
    | eat =>
      obtain ⟨k, -, h⟩ := Option.bind_eq_some_iff.1 h
      unfold eat at h
      obtain ⟨y, hy, h⟩ := Option.map_eq_some_iff.1 h
      split at h
      · cases h
      · cases h
        refine ⟨h1, ?_⟩
        simp only at hy ⊢
        unfold renew at hy
        cases hb : bump q.nl k se with
        | some l' =>
          rw [hb] at hy
          cases hy
          have := congrArg List.length (bump_insts hb)
          simp only [List.length_map] at this
          simp only
          omega
        | none =>
          rw [hb] at hy
          simp only at hy
          split at hy
          · cases hy
            simp only [List.length_append, List.length_cons, List.length_nil]
            omega
          · cases hy
    | opening k => obtain ⟨k, -, h⟩ := Option.bind_eq_some_iff.1 h; exact ih _ _ _ _ h h1 h2
    | closing k =>
      obtain ⟨se', -, h⟩ := Option.bind_eq_some_iff.1 h
      obtain ⟨k, -, h⟩ := Option.bind_eq_some_iff.1 h
      exact ih _ _ _ _ h h1 h2
    | fork right =>
      obtain ⟨o', h3, h⟩ := Option.bind_eq_some_iff.1 h
      cases o' with
      | full => cases h
      | ok q2 =>
        obtain ⟨k, -, h⟩ := Option.bind_eq_some_iff.1 h
        unfold fork at h3
        obtain ⟨y, hy, h3⟩ := Option.map_eq_some_iff.1 h3
        split at h3
        · cases h3
        · cases h3
          refine ih _ _ _ _ h ?_ h2
          simp only at hy ⊢
          unfold renew at hy
          cases hb : bump (⟨cur, se⟩ :: q.pend) right se with
          | some l' =>
            rw [hb] at hy
            cases hy
            have := congrArg List.length (bump_insts hb)
            rw [List.length_map, List.length_map, List.length_cons] at this
            simp only [List.length_tail]
            omega
          | none =>
            rw [hb] at hy
            simp only at hy
            split at hy
            · rename_i hlt
              cases hy
              simp only [List.length_cons] at hlt
              simp only [List.cons_append, List.tail_cons, List.length_append, List.length_cons, List.length_nil]
              omega
            · cases hy
    | fin =>
      simp only [finish] at h
      obtain ⟨y, -, h⟩ := Option.map_eq_some_iff.1 h
      cases h; exact ⟨h1, h2⟩

theorem threadsT_eq (hR : Ranked P ρ) {n : Nat} (hn : P.insts.length + 1 ≤ n) : ∀ (f g d : Nat) (ts : List Thread) (q : Mid), cap ≤ f + d → f ≤ g → d + ts.length < cap → q.nl.length < cap →
    threadsT P E full n cap s g d ts q = some (threads P E full cap s f d ts q) ∧ ∀ q', threads P E full cap s f d ts q = some (.ok q') → q'.nl.length < cap := by
  intro f
  induction f with
  | zero => intro g d ts q h1 _ h2; omega
  | succ f ih =>
    intro g d ts q h1 hg h2 h3
    obtain ⟨g, rfl⟩ : ∃ x, g = x + 1 := ⟨g - 1, by omega⟩
    cases ts with
    | nil => exact ⟨rfl, fun q' h => by cases h; exact h3⟩
    | cons t ts =>
      rw [threadsT, threads]
      simp only [List.length_cons] at h2
      have hc : ∀ (se : Se) (q : Mid), chainT P E full cap d t.inst s n t.inst se q = some (chain P E full cap d t.inst s (P.insts.length + 1) t.inst se q) := by
        intro se q
        by_cases hr : ρ t.inst ≤ P.insts.length
        · rw [chainT_eq hR n _ _ _ (by omega), chain_more hR (P.insts.length + 1) n _ _ _ (by omega) hn]
        · -- an instruction of which nothing is known: it does not lead on
          obtain ⟨n, rfl⟩ : ∃ x, n = x + 1 := ⟨n - 1, by omega⟩
          have hlast : ∀ I k, P.insts[t.inst]? = some I → I.op ≠ .fin → I.next = some k → False := fun I k e1 e2 e3 => hr (hR _ _ _ e1 e2 e3).2
          rw [chainT, chain]
          cases hI : P.insts[t.inst]? with
          | none => rfl
          | some i =>
            simp only [Option.bind_some, req]
            cases hE : eff E s q.r q.icase i.op with
            | none => rfl
            | some x =>
              obtain ⟨x1, x2, x3⟩ := x
              simp only [Option.bind_some]
              by_cases hop : i.op = .fin
              · rw [hop] at hE
                simp only [eff, Option.some.injEq, Prod.mk.injEq] at hE
                obtain ⟨-, -, rfl⟩ := hE
                rfl
              · cases hnx : i.next with
                | some k => exact (hlast i k hI hop hnx).elim
                | none =>
                  cases x3 with
                  | closing k => simp only; cases setSize se k s <;> rfl
                  | fork r =>
                    simp only
                    cases fork cap d t.inst r se _ with
                    | none => rfl
                    | some o => cases o <;> rfl
                  | _ => rfl
      rw [hc, Option.bind_some]
      cases ho : chain P E full cap d t.inst s (P.insts.length + 1) t.inst t.se { q with pend := ts } with
      | none => exact ⟨rfl, fun q' h => by cases h⟩
      | some o =>
        cases o with
        | full => exact ⟨rfl, fun q' h => by cases h⟩
        | ok q' =>
          obtain ⟨l1, l2⟩ := chain_lists _ _ _ _ _ ho (by simp only; omega) (by exact h3)
          exact ih g (d + 1) q'.pend q' (by omega) (by omega) (by omega) l2

theorem findT_eq {m : List Byte} {p : Byte → Bool} : ∀ (f g s : Nat), m.length < f + s → f ≠ 0 → f ≤ g → findByteT m p g s = some (findByte m p f s) := by
  intro f
  induction f with
  | zero => intro g s h1 h0; exact absurd rfl h0
  | succ f ih =>
    intro g s h1 _ h2
    obtain ⟨g, rfl⟩ : ∃ x, g = x + 1 := ⟨g - 1, by omega⟩
    rw [findByteT, findByte]
    cases hb : m[s]? with
    | none => rfl
    | some b =>
      have := (List.getElem?_eq_some_iff.1 hb).1
      simp only [req, Option.bind_some]
      split
      · rfl
      · split
        · rfl
        · exact ih g (s + 1) (by omega) (by omega) (by omega)

theorem seekT_eq {n : Nat} {check : Bool} (hn : E.m.length + 1 ≤ n) : seekT P E n check s = some (seek P E check s) := by
  have hf : ∀ p, findByteT E.m p n s = some (findByte E.m p (E.m.length + 1) s) := fun p => findT_eq _ _ _ (by omega) (by omega) hn
  unfold seekT seek
  split
  · generalize startType P = st
    unfold startCheckT startCheck
    split
    · rfl
    · rw [hf]; rfl
    · rw [hf]; rfl
    · split
      · rfl
      · rw [hf]; rfl
  · rfl

theorem seek_ge {check : Bool} {s' : Nat} (h : seek P E check s = some (some s')) : s ≤ s' := by
  unfold seek at h
  split at h
  · unfold startCheck at h
    split at h
    · cases h; exact Nat.le_refl _
    · obtain ⟨o, h1, h⟩ := Option.bind_eq_some_iff.1 h
      split at h
      · cases h
      · simp only [Option.some.injEq] at h; subst h; exact (find_some _ _ _ h1).1
    · obtain ⟨o, h1, h⟩ := Option.bind_eq_some_iff.1 h
      split at h
      · cases h
      · simp only [Option.some.injEq] at h; subst h; exact (find_some _ _ _ h1).1
    · split at h
      · cases h; exact Nat.le_refl _
      · obtain ⟨o, h1, h⟩ := Option.bind_eq_some_iff.1 h
        split at h
        · cases h
        · simp only [Option.some.injEq] at h
          obtain ⟨k, rfl, rfl⟩ := Option.map_eq_some_iff.1 h
          have := (find_some _ _ _ h1).1
          omega
  · cases h; exact Nat.le_refl _

theorem inject_len {matched : Bool} {tl tl' : List Thread} (h : inject P cap matched tl s = some tl') (hl : tl.length < cap) : tl'.length < cap := by
  unfold inject at h
  split at h
  · cases h; exact hl
  · unfold renewEmpty at h
    obtain ⟨y, hy, rfl⟩ := Option.map_eq_some_iff.1 h
    unfold renew at hy
    cases hb : bump tl P.start ⟨s, noSub⟩ with
    | some l' =>
      rw [hb] at hy
      cases hy
      have := congrArg List.length (bump_insts hb)
      simp only [List.length_map] at this
      simp only
      omega
    | none =>
      rw [hb] at hy
      simp only at hy
      split at hy
      · cases hy
        simp only [List.length_append, List.length_cons, List.length_nil]
        omega
      · cases hy

theorem mainLoopT_eq (hR : Ranked P ρ) {n : Nat} (hn : P.insts.length + 1 ≤ n) (hm : E.m.length + 1 ≤ n) (hcap : cap + 1 ≤ n) (h0 : 0 < cap) :
    ∀ (f g s : Nat) (check : Bool) (tl : List Thread) (ic matched : Bool) (mp : Option Match), E.m.length < f + s → f ≠ 0 → f ≤ g → tl.length < cap →
    mainLoopT P E full n cap g s check tl ic matched mp = some (mainLoop P E full cap f s check tl ic matched mp) := by
  intro f
  induction f with
  | zero => intro g s check tl ic matched mp _ h; exact absurd rfl h
  | succ f ih =>
    intro g s check tl ic matched mp h1 _ h2 h3
    obtain ⟨g, rfl⟩ : ∃ x, g = x + 1 := ⟨g - 1, by omega⟩
    rw [mainLoopT, mainLoop, seekT_eq hm, Option.bind_some]
    cases hs : seek P E check s with
    | none => rfl
    | some o =>
      cases o with
      | none => rfl
      | some s' =>
        have hge := seek_ge hs
        simp only [req, Option.bind_some]
        cases hr : rune E.m s' with
        | none => rfl
        | some rn =>
          obtain ⟨n1, -, -, b, hb, -⟩ := rune_facts hr
          have hlt := (List.getElem?_eq_some_iff.1 hb).1
          simp only [Option.bind_some]
          cases hi : inject P cap matched tl s' with
          | none => rfl
          | some tl' =>
            simp only [Option.bind_some]
            obtain ⟨t1, t2⟩ := threadsT_eq (E := E) (full := full) (cap := cap) (s := s') hR hn (cap + 1) n 0 tl' ⟨rn.1, ic, [], [], matched, mp⟩ (by omega) hcap (by have := inject_len hi h3; omega) h0
            rw [t1, Option.bind_some]
            cases ht : threads P E full cap s' (cap + 1) 0 tl' ⟨rn.1, ic, [], [], matched, mp⟩ with
            | none => rfl
            | some o =>
              cases o with
              | full => rfl
              | ok q =>
                simp only [Option.bind_some]
                split
                · rfl
                · exact ih g (s' + rn.2) _ _ _ _ _ (by omega) (by omega) (by omega) (t2 q ht)
end

/-! ### every pattern -/

theorem compile_length {cap n : Nat} {ic : Bool} {ts : List (Tok Op)} {P : Prog} (hcap : 2 * ts.length + 1 ≤ cap) (h : compile cap ic ts = .ok (P, n)) : P.insts.length ≤ 2 * ts.length + 1 := by
  have h0 : Stacks 0 ps0.ators ps0.x := ⟨fun n hn => (by cases hn), ⟨[], rfl⟩, by simp [ps0, weights, Ator.weight]⟩
  unfold compile at h
  have ht := tokens_safe (cap := cap) (ts := ts) (B := 0) (by omega) h0
  obtain ⟨s1, e1, h⟩ := bind_ok h
  rw [e1] at ht
  have hev := evaluntil_safe (cap := cap) (pri := 1) (by omega) (by omega) ht
  obtain ⟨⟨o2, x2⟩, e2, h⟩ := bind_ok h
  rw [e2] at hev
  have hop := operand_safe (cap := cap) (op := .fin) (s := { s1 with x := x2, ators := o2 }) (by omega) hev.1
  obtain ⟨s3, e3, h⟩ := bind_ok h
  rw [e3] at hop
  have hev2 := evaluntil_safe (cap := cap) (pri := 1) (by omega) (by omega) hop.1
  obtain ⟨⟨o4, x4⟩, e4, h⟩ := bind_ok h
  rw [e4] at hev2
  simp only at h
  split at h
  · cases h
  · split at h
    · cases h
    · split at h
      · cases h
      · rename_i g hg
        obtain ⟨k', hO, -, -⟩ := optimize_inv ⟨rfl, fun _ => rfl, fun _ _ => rfl, fun i hi => by omega⟩ hg
        cases h
        have := hev2.1.pot
        have := hO.len
        simp only at *
        omega

theorem parseLoop_tokens {cap : Nat} : ∀ {f : Nat} {st : LS} {s s' : PS}, parseLoop cap f st s = .ok s' → ∃ ts, tokens cap ts s = .ok s' ∧ ts.length < f
  | 0, _, _, _, h => by cases h
  | f + 1, st, s, s', h => by
    rw [parseLoop] at h
    obtain ⟨⟨t, st'⟩, -, h⟩ := bind_ok h
    cases t with
    | none => cases h; exact ⟨[], rfl, by simp⟩
    | some t =>
      obtain ⟨s1, h1, h⟩ := bind_ok h
      obtain ⟨ts, h2, h3⟩ := parseLoop_tokens h
      exact ⟨t :: ts, (by rw [tokens, h1]; exact h2), by simpa using h3⟩

/-- Whatever compiles was compiled from a list of at most as many tokens as the pattern has characters. -/
theorem regcomp_tokens {ic dot : Bool} {bytes n : Nat} {s : List Nat} {P : Prog} (h : regcomp ic dot bytes s = .ok (P, n)) : ∃ ts, compile (5 + 6 * bytes) ic ts = .ok (P, n) ∧ ts.length ≤ s.length := by
  unfold regcomp at h
  obtain ⟨s1, h1, h⟩ := bind_ok h
  obtain ⟨ts, h2, h3⟩ := parseLoop_tokens h1
  exact ⟨ts, (by rw [compile_finish, h2]; exact h), by omega⟩

section
variable {n k bytes : Nat} {ic dot full alloc : Bool} {s : List Nat} {P : Prog} {E : Env} {cs : List Nat} {pre rest : List Byte}

/-- C163. Matching ends: for every pattern that compiles, every memory and every position, all loops of the
matcher end within a number of rounds given by the sizes of the program and the memory, and the result
is that of `exec`. Nothing is assumed about the pattern, the text, or that the threads fit into the
lists. -/
theorem matching_ends (hc : regcomp ic dot bytes s = .ok (P, n)) (pos N : Nat) (hN : P.insts.length + E.m.length + 102 ≤ N) :
    execT P E full N pos alloc = some (exec P E full pos alloc) := by
  obtain ⟨ts, hc, -⟩ := regcomp_tokens hc
  obtain ⟨ρ, hR⟩ := compile_ranked hc
  unfold execT exec exec1
  rw [mainLoopT_eq hR (by omega) (by omega) (by omega) (by omega) (E.m.length + 2) N pos true [] P.icase false none (by omega) (by omega) (by omega) (by simp), Option.bind_some]
  cases mainLoop P E full 10 (E.m.length + 2) pos true [] P.icase false none with
  | none => rfl
  | some x =>
    simp only [req, Option.bind_some]
    split
    · rfl
    · split
      · exact mainLoopT_eq hR (by omega) (by omega) (by omega) (by omega) (E.m.length + 2) N pos true [] P.icase false none (by omega) (by omega) (by omega) (by simp)
      · rfl

/-- C163. The number of rounds does not depend on the program when it is given the length of the pattern. -/
theorem matching_ends_pattern (hb : s.length ≤ bytes) (hc : regcomp ic dot bytes s = .ok (P, n)) (pos : Nat) :
    execT P E full (2 * s.length + E.m.length + 103) pos alloc = some (exec P E full pos alloc) := by
  refine matching_ends hc pos _ ?_
  obtain ⟨ts, hc, h1⟩ := regcomp_tokens hc
  have := compile_length (by omega) hc
  omega

/-- C161. There are no slow patterns: for every pattern that compiles and every text, a search whose result
is defined takes work at most proportional to the length of the pattern times the number of bytes
left. Missing: views that end in the middle of a string, where patterns beginning with a letter or
`^` look for their first character behind the end of the view. -/
theorem search_work_partial (hb : s.length ≤ bytes) (hc : regcomp ic dot bytes s = .ok (P, n))
    (hin : Input E cs pre rest) (hend : Soft E ∨ startType P = .none) (hk : k ≤ cs.length) {x : Int × Option Match} (hx : exec P E full (off pre cs k) alloc = some x) :
    ∃ c, execC P E full (off pre cs k) alloc = some (x, c) ∧ c ≤ 228 * (s.length + 1) * ((text (cs.drop k)).length + 1) := by
  have hlen : P.insts.length ≤ 2 * s.length + 1 := by
    obtain ⟨ts, hc, h1⟩ := regcomp_tokens hc
    have := compile_length (by omega) hc
    omega
  rw [← execC_fst] at hx
  obtain ⟨⟨y, c⟩, h1, rfl⟩ := Option.map_eq_some_iff.1 hx
  exact ⟨c, h1, (execC_bounds hin hend hk hlen h1).1⟩

end

/-- How a pattern ends in `N` rounds: not at all, undefined, or with a result. -/
def ends (s : List Nat) (E : Env) (N : Nat) : Option (Option Int) :=
  match regcomp false false s.length s with
  | .ok (P, _) => (execT P E false N 0 true).map fun x => x.map (·.1)
  | _ => none

/-- Loops around loops that can go round without reading, `(a*)*` and `((a*)*|b?)+c`; in too few rounds
they do not come to an end. The threads of the second one do not fit into the list: it ends with an
error. -/
example : ends [40, 97, 42, 41, 42] (strU [97, 97]) 200 = some (some 1) ∧ ends [40, 97, 42, 41, 42] (strU [97, 97]) 3 = none ∧
    ends [40, 40, 97, 42, 41, 42, 124, 98, 63, 41, 43, 99] (strU [97, 98, 97, 99]) 200 = some (some (-1)) := by decide +kernel

/-- A program that goes round in a circle, as no pattern has: it ends in no number of rounds. -/
example (N : Nat) : execT ⟨[⟨.cased, some 0⟩], 0, false⟩ (strU [97]) false N 0 true = none := by
  have hch : ∀ (f n cap d cur s : Nat) (se : Se) (q : Mid), f = n → chainT ⟨[⟨.cased, some 0⟩], 0, false⟩ (strU [97]) false cap d cur s f 0 se q = none := by
    intro f
    induction f with
    | zero => intros; rfl
    | succ f ih => intro n cap d cur s se q _; exact ih f cap d cur s se _ rfl
  have hm : mainLoopT ⟨[⟨.cased, some 0⟩], 0, false⟩ (strU [97]) false N 10 N 0 true [] false false none = none := by
    cases N with
    | zero => rfl
    | succ n =>
      have : threadsT ⟨[⟨.cased, some 0⟩], 0, false⟩ (strU [97]) false (n + 1) 10 0 (n + 1) 0 [⟨0, ⟨0, noSub⟩⟩] ⟨97, false, [], [], false, none⟩ = none := by
        rw [threadsT, hch _ _ _ _ _ _ _ _ rfl]; rfl
      exact (congrArg (fun x => Option.bind x _) this)
  unfold execT
  rw [hm]; rfl

end Verif.Regex
