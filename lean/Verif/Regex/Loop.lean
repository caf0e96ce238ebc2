import Verif.Regex.ExecLemmas
import Verif.Regex.Runes
/- The main loop of the matcher: what it reports is a match, and the leftmost longest one. -/
namespace Verif.Regex
open Verif.Utf8 (Byte casefold decodeCp)

/-- The fast check of the first character does not look at the end of a view, unless there is a terminator. -/
def Plain (P : Prog) (E : Env) : Prop := Soft E ∨ startType P = .none

theorem lower_lt {c : Nat} (h : c < 128) : lowerAscii c < 128 := by unfold lowerAscii; split <;> omega

theorem lower_ge {c : Nat} (h : 128 ≤ c) : lowerAscii c = c := by unfold lowerAscii; split <;> omega

theorem lower_lower (c : Nat) : lowerAscii (lowerAscii c) = lowerAscii c := by
  unfold lowerAscii
  split
  · rw [if_neg (by omega)]
  · rfl

theorem fold_ascii : ∀ r < 128, casefold r = lowerAscii r := by decide +kernel

theorem startType_chr {P : Prog} {c : Nat} (h : startType P = .chr c) : ∃ k, P.insts[P.start]? = some ⟨.rune c, k⟩ ∧ P.icase = false ∧ c < 128 := by
  unfold startType at h
  split at h
  · rename_i c' k e
    split at h
    · rename_i hc; cases h; exact ⟨k, e, hc⟩
    · cases h
  · split at h <;> cases h
  · cases h
  · cases h

theorem startType_ichr {P : Prog} {c : Nat} (h : startType P = .ichr c) : ∃ k, P.insts[P.start]? = some ⟨.irune c, k⟩ ∧ P.icase = true ∧ c < 128 := by
  unfold startType at h
  split at h
  · split at h <;> cases h
  · rename_i c' k e
    split at h
    · rename_i hc; cases h; exact ⟨k, e, hc⟩
    · cases h
  · cases h
  · cases h

theorem startType_bol {P : Prog} (h : startType P = .bol) : ∃ k, P.insts[P.start]? = some ⟨.bol, k⟩ := by
  unfold startType at h
  split at h
  · split at h <;> cases h
  · split at h <;> cases h
  · rename_i k e; exact ⟨k, e⟩
  · cases h

/-- Where the fast check stops is the position of a character. -/
theorem seek_pos {P : Prog} {E : Env} {s0 s s' : Nat} {check : Bool} (hpl : Plain P E) (hp : Pos E s0 s) (h : seek P E check s = some (some s')) :
    Pos E s0 s' ∧ s ≤ s' ∧ (check = false → s' = s) := by
  unfold seek at h
  cases check with
  | false => simp only [Bool.false_eq_true, if_false, Option.some.injEq] at h; subst h; exact ⟨hp, Nat.le_refl _, fun _ => rfl⟩
  | true =>
    simp only [if_true] at h
    cases hst : startType P with
    | none => rw [hst] at h; simp only [startCheck, Option.some.injEq] at h; subst h; exact ⟨hp, Nat.le_refl _, fun h => by cases h⟩
    | chr c =>
      have he : Soft E := by rcases hpl with h | h; exact h; rw [hst] at h; cases h
      obtain ⟨k, -, -, hc⟩ := startType_chr hst
      rw [hst] at h
      simp only [startCheck] at h
      cases hf : findByte E.m (fun b => b.toNat == c) (E.m.length + 1) s with
      | none => rw [hf] at h; cases h
      | some o =>
        rw [hf] at h
        simp only [Option.bind_some, Option.some.injEq] at h
        have hse : some s ≠ E.eol := fun e => by rw [if_pos e] at h; cases h
        rw [if_neg hse] at h
        subst h
        obtain ⟨h1, ⟨b, h2, h3⟩, h4⟩ := find_some _ _ _ hf
        simp only [beq_iff_eq] at h3
        refine ⟨pos_ascii he h2 (by omega) _ s rfl h1 hp (fun i a c => ?_), h1, fun h => by cases h⟩
        obtain ⟨b, x, -, y⟩ := h4 i a c
        exact ⟨b, x, y⟩
    | ichr c =>
      have he : Soft E := by rcases hpl with h | h; exact h; rw [hst] at h; cases h
      obtain ⟨k, -, -, hc⟩ := startType_ichr hst
      rw [hst] at h
      simp only [startCheck] at h
      cases hf : findByte E.m (fun b => b != 0#8 && lowerAscii b.toNat == lowerAscii c) (E.m.length + 1) s with
      | none => rw [hf] at h; cases h
      | some o =>
        rw [hf] at h
        simp only [Option.bind_some, Option.some.injEq] at h
        have hse : some s ≠ E.eol := fun e => by rw [if_pos e] at h; cases h
        rw [if_neg hse] at h
        subst h
        obtain ⟨h1, ⟨b, h2, h3⟩, h4⟩ := find_some _ _ _ hf
        simp only [Bool.and_eq_true, beq_iff_eq] at h3
        have hb : b.toNat < 128 := by
          by_contra hlt
          have := lower_lt hc
          rw [lower_ge (by omega)] at h3
          omega
        refine ⟨pos_ascii he h2 hb _ s rfl h1 hp (fun i a c => ?_), h1, fun h => by cases h⟩
        obtain ⟨b, x, -, y⟩ := h4 i a c
        exact ⟨b, x, y⟩
    | bol =>
      have he : Soft E := by rcases hpl with h | h; exact h; rw [hst] at h; cases h
      rw [hst] at h
      simp only [startCheck] at h
      split at h
      · simp only [Option.some.injEq] at h; subst h; exact ⟨hp, Nat.le_refl _, fun h => by cases h⟩
      · cases hf : findByte E.m (fun b => b.toNat == 10) (E.m.length + 1) s with
        | none => rw [hf] at h; cases h
        | some o =>
          rw [hf] at h
          simp only [Option.bind_some, Option.some.injEq] at h
          have hse : some s ≠ E.eol := fun e => by rw [if_pos e] at h; cases h
          rw [if_neg hse] at h
          cases o with
          | none => cases h
          | some k =>
            simp only [Option.map_some, Option.some.injEq] at h
            subst h
            obtain ⟨h1, ⟨b, h2, h3⟩, h4⟩ := find_some _ _ _ hf
            simp only [beq_iff_eq] at h3
            have hk : Pos E s0 k := pos_ascii he h2 (by omega) _ s rfl h1 hp (fun i a c => by
              obtain ⟨b, x, -, y⟩ := h4 i a c
              exact ⟨b, x, y⟩)
            refine ⟨.step hk ⟨10, 1, ?_, by omega, fun e => by rw [he k e.symm] at h2; cases h2; simp at h3, rfl⟩, by omega, fun h => by cases h⟩
            unfold rune
            rw [h2, Option.bind_some, if_pos (by omega), h3]

/-- The threads before a position is processed, and the record. -/
structure LInv (P : Prog) (E : Env) (s0 : Nat) (full : Bool) (s : Nat) (tl : List Thread) (ic matched : Bool) (mp : Option Match) : Prop where
  at_ : Pos E s0 s
  icase : ic = P.icase
  live : ∀ t ∈ tl, Lv P E s0 t.inst s t.se
  good : ∀ b, mp = some b → Good P E s0 b
  has : matched = true → mp.isSome
  fullOk : full = true → matched = true → FullOk P E s0
  stop : ∀ b, mp = some b → b.stop < s

theorem inject_sound {P : Prog} {E : Env} {s0 s cap : Nat} {matched : Bool} {tl tl' : List Thread} (hp : Pos E s0 s)
    (h : ∀ t ∈ tl, Lv P E s0 t.inst s t.se) (hi : inject P cap matched tl s = some tl') : ∀ t ∈ tl', Lv P E s0 t.inst s t.se := by
  unfold inject at hi
  split at hi
  · cases hi; exact h
  · unfold renewEmpty at hi
    cases hw : renew cap 0 tl P.start ⟨s, noSub⟩ with
    | none => rw [hw] at hi; cases hi
    | some x =>
      rw [hw] at hi
      simp only [Option.map_some, Option.some.injEq] at hi
      subst hi
      intro t ht
      rcases (renew_facts hw).1 t ht with ht | rfl
      · exact h t ht
      · exact ⟨hp, fun k j τ hf => ⟨k, hf⟩⟩

theorem loop_sound {P : Prog} {E : Env} {s0 cap : Nat} {full : Bool} (hU : Uniform P) (hpl : Plain P E) :
    ∀ (f s : Nat) (check : Bool) (tl : List Thread) (ic matched : Bool) (mp : Option Match) (ret : Int) (o : Option Match),
    LInv P E s0 full s tl ic matched mp → (check = true → tl = []) → mainLoop P E full cap f s check tl ic matched mp = some (ret, o) →
    (ret = 1 ∨ ret = 0 ∨ ret = -1) ∧ (ret = 1 → (∃ b, o = some b ∧ Good P E s0 b) ∧ (full = true → FullOk P E s0))
  | 0, _, _, _, _, _, _, _, _, _, _, h => by cases h
  | f + 1, s, check, tl, ic, matched, mp, ret, o, hI, hck, h => by
    have fin : ∀ {mt : Bool} {mp' : Option Match}, (∀ b, mp' = some b → Good P E s0 b) → (mt = true → mp'.isSome) → (full = true → mt = true → FullOk P E s0) →
        some ((if mt then 1 else 0 : Int), mp') = some (ret, o) →
        (ret = 1 ∨ ret = 0 ∨ ret = -1) ∧ (ret = 1 → (∃ b, o = some b ∧ Good P E s0 b) ∧ (full = true → FullOk P E s0)) := by
      intro mt mp' h1 h2 h3 h4
      simp only [Option.some.injEq, Prod.mk.injEq] at h4
      obtain ⟨rfl, rfl⟩ := h4
      cases mt with
      | false => exact ⟨.inr (.inl rfl), fun h => by simp at h⟩
      | true =>
        refine ⟨.inl rfl, fun _ => ⟨?_, fun hf => h3 hf rfl⟩⟩
        obtain ⟨b, hb⟩ := Option.isSome_iff_exists.1 (h2 rfl)
        exact ⟨b, hb, h1 b hb⟩
    rw [mainLoop] at h
    cases hsk : seek P E check s with
    | none => rw [hsk] at h; cases h
    | some os =>
      rw [hsk, Option.bind_some] at h
      cases os with
      | none => exact fin hI.good hI.has hI.fullOk h
      | some s' =>
        obtain ⟨hp', hle, hc⟩ := seek_pos hpl hI.at_ hsk
        simp only at h
        cases hr : rune E.m s' with
        | none => rw [hr] at h; cases h
        | some rn =>
          obtain ⟨r, n⟩ := rn
          rw [hr, Option.bind_some] at h
          cases hj : inject P cap matched tl s' with
          | none => rw [hj] at h; cases h
          | some tl' =>
            rw [hj, Option.bind_some] at h
            have htl : ∀ t ∈ tl, Lv P E s0 t.inst s' t.se := by
              cases check with
              | true => rw [hck rfl]; simp
              | false => rw [hc rfl]; exact hI.live
            have htl' := inject_sound hp' htl hj
            cases ht : threads P E full cap s' (cap + 1) 0 tl' ⟨r, ic, [], [], matched, mp⟩ with
            | none => rw [ht] at h; cases h
            | some out =>
              rw [ht, Option.bind_some] at h
              cases out with
              | full =>
                simp only [Option.some.injEq, Prod.mk.injEq] at h
                obtain ⟨rfl, rfl⟩ := h
                exact ⟨.inr (.inr rfl), fun h => by cases h⟩
              | ok q =>
                have hS := threads_sound hU hr _ _ _ _ q htl' (⟨.inl rfl, hI.icase, by simp, by simp, hI.good, hI.has, hI.fullOk, fun b hb => Nat.le_trans (Nat.le_of_lt (hI.stop b hb)) hle⟩ : Snd P E s0 full s' r n ⟨r, ic, [], [], matched, mp⟩) ht
                simp only at h
                by_cases hend : some s' = E.eol ∨ q.r = 0
                · rw [if_pos hend] at h
                  exact fin hS.mp hS.has hS.fullOk h
                · rw [if_neg hend] at h
                  have h1 : some s' ≠ E.eol := fun x => hend (.inl x)
                  have h2 : r ≠ 0 := fun x => hend (.inr ((same_zero hS.same).2 x))
                  refine loop_sound hU hpl f _ _ _ _ _ _ _ _ ⟨.step hp' ⟨r, n, hr, h2, h1, rfl⟩, hS.ic, hS.nl h2 h1, hS.mp, hS.has, hS.fullOk, fun b hb => by have := hS.stop b hb; have := (rune_facts hr).1; omega⟩ ?_ h
                  intro hx
                  simp only [Bool.and_eq_true, List.isEmpty_iff] at hx
                  exact hx.2

/-- **Soundness.** What `_regexec1` reports begins at a character, and the program leads from there to the
reported end with the reported groups. -/
theorem exec1_sound {P : Prog} {E : Env} {s0 cap : Nat} {full : Bool} {ret : Int} {o : Option Match} (hU : Uniform P) (hpl : Plain P E)
    (h : exec1 P E full cap s0 = some (ret, o)) :
    (ret = 1 ∨ ret = 0 ∨ ret = -1) ∧ (ret = 1 → (∃ b, o = some b ∧ Good P E s0 b) ∧ (full = true → FullOk P E s0)) :=
  loop_sound hU hpl _ _ _ _ _ _ _ _ _ ⟨.here, rfl, by simp, by simp, by simp, by simp, by simp⟩ (fun _ => rfl) h

/-! ### completeness -/

/-- What the fast check of the first character relies on. -/
structure Fast (P : Prog) (E : Env) (s0 : Nat) : Prop where
  plain : Plain P E
  bol : startType P = .bol → E.bol = s0 ∧ ∀ b r n, Pos E s0 b → rune E.m b = some (r, n) → r ≠ 10
  ichr : ∀ c, startType P = .ichr c → ∀ b r n, Pos E s0 b → rune E.m b = some (r, n) → 128 ≤ r → casefold r ≠ c

theorem F_chr {P : Prog} {E : Env} {c b i n : Nat} (hst : startType P = .chr c) (hf : F P E n P.start b i) : ∃ x, E.m[b]? = some x ∧ x ≠ 0#8 ∧ x.toNat = c := by
  obtain ⟨k, hk, hic, hc⟩ := startType_chr hst
  have key : ∀ {e : Eff} {I : Inst}, P.insts[P.start]? = some I → Does P E b I.op e → e = .eat ∨ e = .die := by
    intro e I h1 h2
    rw [hk] at h1; cases h1
    obtain ⟨r, m, -, h4⟩ := h2
    simp only [eff, Option.map_some, Option.some.injEq, Eff.test] at h4
    rw [← h4]; split <;> simp
  cases hf with
  | fin a d => rcases key a d with h | h <;> cases h
  | go a d => rcases key a d with h | h <;> cases h
  | opening a d => rcases key a d with h | h <;> cases h
  | closing a d => rcases key a d with h | h <;> cases h
  | left a d => rcases key a d with h | h <;> cases h
  | right a d => rcases key a d with h | h <;> cases h
  | eat a d e st g =>
    rw [hk] at a; cases a
    obtain ⟨r, m, h3, h4⟩ := d
    obtain ⟨r', n', h5, h6, -, rfl⟩ := st
    rw [h3] at h5; cases h5
    obtain ⟨-, -, -, x, f4, f5, f6, f7⟩ := rune_facts h3
    have hcode : isCode c = false := by simp [isCode]; omega
    simp only [eff, Option.map_some, Option.some.injEq, Eff.test, runematch, hcode, Bool.false_eq_true, if_false] at h4
    have hrc : c = r := by
      by_contra hne
      simp [hne] at h4
    refine ⟨x, f4, fun h => h6 (f5.2 h), ?_⟩
    by_cases hx : x.toNat < 0x80
    · rw [hrc]; exact (f6 hx).1.symm
    · have := f7 (by omega); omega

theorem F_ichr {P : Prog} {E : Env} {s0 c b i n : Nat} (hfa : Fast P E s0) (hst : startType P = .ichr c) (hb : Pos E s0 b) (hf : F P E n P.start b i) :
    ∃ x, E.m[b]? = some x ∧ x ≠ 0#8 ∧ lowerAscii x.toNat = lowerAscii c := by
  obtain ⟨k, hk, hic, hc⟩ := startType_ichr hst
  have key : ∀ {e : Eff} {I : Inst}, P.insts[P.start]? = some I → Does P E b I.op e → e = .eat ∨ e = .die := by
    intro e I h1 h2
    rw [hk] at h1; cases h1
    obtain ⟨r, m, -, h4⟩ := h2
    simp only [eff, Option.map_some, Option.some.injEq, Eff.test] at h4
    rw [← h4]; split <;> simp
  cases hf with
  | fin a d => rcases key a d with h | h <;> cases h
  | go a d => rcases key a d with h | h <;> cases h
  | opening a d => rcases key a d with h | h <;> cases h
  | closing a d => rcases key a d with h | h <;> cases h
  | left a d => rcases key a d with h | h <;> cases h
  | right a d => rcases key a d with h | h <;> cases h
  | eat a d e st g =>
    rw [hk] at a; cases a
    obtain ⟨r, m, h3, h4⟩ := d
    obtain ⟨r', n', h5, h6, -, rfl⟩ := st
    rw [h3] at h5; cases h5
    obtain ⟨-, -, -, x, f4, f5, f6, f7⟩ := rune_facts h3
    have hcode : isCode c = false := by simp [isCode]; omega
    simp only [eff, Option.map_some, Option.some.injEq, Eff.test, runematch, hcode, Bool.false_eq_true, if_false] at h4
    have hrc : c = casefold r := by
      by_contra hne
      simp [hne] at h4
    have hr : r < 128 := by
      by_contra hlt
      exact hfa.ichr c hst b r m hb h3 (by omega) hrc.symm
    refine ⟨x, f4, fun h => h6 (f5.2 h), ?_⟩
    have hx : x.toNat < 0x80 := by
      by_contra hlt
      have := f7 (by omega); omega
    rw [hrc, fold_ascii r hr, lower_lower, (f6 hx).1]

theorem F_bol {P : Prog} {E : Env} {b i n : Nat} (hst : startType P = .bol) (hf : F P E n P.start b i) :
    b = E.bol ∨ (b ≠ 0 ∧ ∃ x, E.m[b - 1]? = some x ∧ x.toNat = 10) := by
  obtain ⟨k, hk⟩ := startType_bol hst
  have key : ∀ {e : Eff} {I : Inst}, P.insts[P.start]? = some I → Does P E b I.op e →
      e = .die ∨ (e = .go ∧ (b = E.bol ∨ (b ≠ 0 ∧ ∃ x, E.m[b - 1]? = some x ∧ x.toNat = 10))) := by
    intro e I h1 h2
    rw [hk] at h1; cases h1
    obtain ⟨r, m, -, h4⟩ := h2
    simp only [eff] at h4
    split at h4
    · rename_i hb
      simp only [Option.map_some, Option.some.injEq] at h4
      exact .inr ⟨h4.symm, .inl hb⟩
    · split at h4
      · cases h4
      · rename_i hb0
        cases hx : E.m[b - 1]? with
        | none => rw [hx] at h4; cases h4
        | some x =>
          rw [hx] at h4
          simp only [Option.bind_some, Option.map_some, Option.some.injEq, Eff.pass] at h4
          split at h4
          · rename_i h10
            exact .inr ⟨h4.symm, .inr ⟨hb0, x, rfl, by simpa using h10⟩⟩
          · exact .inl h4.symm
  cases hf with
  | fin a d => rcases key a d with h | ⟨h, -⟩ <;> cases h
  | go a d => rcases key a d with h | ⟨-, h⟩; cases h; exact h
  | opening a d => rcases key a d with h | ⟨h, -⟩ <;> cases h
  | closing a d => rcases key a d with h | ⟨h, -⟩ <;> cases h
  | left a d => rcases key a d with h | ⟨h, -⟩ <;> cases h
  | right a d => rcases key a d with h | ⟨h, -⟩ <;> cases h
  | eat a d e st g => rcases key a d with h | ⟨h, -⟩ <;> cases h

/-- Behind the beginning there is no line feed, so no match of a pattern beginning with `^`. -/
theorem no_bol {P : Prog} {E : Env} {s0 b i n : Nat} (hfa : Fast P E s0) (hst : startType P = .bol) (hb : Pos E s0 b) (hf : F P E n P.start b i) : b = s0 := by
  obtain ⟨h1, h2⟩ := hfa.bol hst
  rcases F_bol hst hf with h | ⟨h0, x, hx, hx10⟩
  · rw [h, h1]
  · cases hb with
    | here => rfl
    | @step u _ hu hst' =>
      exfalso
      obtain ⟨r, m, hr, hr0, he, rfl⟩ := hst'
      obtain ⟨f1, f2, f3, y, f4, f5, f6, f7⟩ := rune_facts hr
      by_cases hm : m = 1
      · subst hm
        simp only [Nat.add_sub_cancel] at hx
        rw [f4] at hx; cases hx
        have := (f6 (by omega)).1
        exact h2 u r 1 hu hr (by omega)
      · obtain ⟨y', hy, hy'⟩ := f3 (u + m - 1) (by omega) (by omega)
        rw [hx] at hy; cases hy
        omega

/-- No match begins at a position that the fast check skips. -/
theorem seek_skip {P : Prog} {E : Env} {s0 s : Nat} {check : Bool} {o : Option Nat} (hfa : Fast P E s0) (hp : Pos E s0 s) (h : seek P E check s = some o) :
    ∀ b, Pos E s0 b → s ≤ b → (∀ s', o = some s' → b < s') → ∀ n i, ¬ F P E n P.start b i := by
  intro b hb hsb hlt n i hf
  unfold seek at h
  cases check with
  | false => simp only [Bool.false_eq_true, if_false, Option.some.injEq] at h; have := hlt s h.symm; omega
  | true =>
    simp only [if_true] at h
    cases hst : startType P with
    | none => rw [hst] at h; simp only [startCheck, Option.some.injEq] at h; have := hlt s h.symm; omega
    | chr c =>
      have he : Soft E := by rcases hfa.plain with h | h; exact h; rw [hst] at h; cases h
      obtain ⟨x, hx, hx0, hxc⟩ := F_chr hst hf
      rw [hst] at h
      simp only [startCheck] at h
      cases hfi : findByte E.m (fun b => b.toNat == c) (E.m.length + 1) s with
      | none => rw [hfi] at h; cases h
      | some o' =>
        rw [hfi] at h
        simp only [Option.bind_some, Option.some.injEq] at h
        have hse : some s ≠ E.eol := by
          intro e
          have h0 := he s e.symm
          have := pos_zero h0 (pos_le hp) hb
          rw [show b = s by omega, h0] at hx
          cases hx
          exact hx0 rfl
        rw [if_neg hse] at h
        subst h
        have : ∃ x', E.m[b]? = some x' ∧ (x'.toNat == c) = false := by
          cases o' with
          | none =>
            obtain ⟨k, h1, h2, h3⟩ := find_none _ _ hfi
            have hbk := pos_zero h2 (Nat.le_trans (pos_le hp) h1) hb
            obtain ⟨x', h4, h5, -⟩ := h3 b hsb hbk
            exact ⟨x', h4, h5⟩
          | some k =>
            obtain ⟨-, -, h3⟩ := find_some _ _ _ hfi
            obtain ⟨x', h4, h5, -⟩ := h3 b hsb (hlt k rfl)
            exact ⟨x', h4, h5⟩
        obtain ⟨x', h4, h5⟩ := this
        rw [hx] at h4; cases h4
        simp [hxc] at h5
    | ichr c =>
      have he : Soft E := by rcases hfa.plain with h | h; exact h; rw [hst] at h; cases h
      obtain ⟨x, hx, hx0, hxc⟩ := F_ichr hfa hst hb hf
      rw [hst] at h
      simp only [startCheck] at h
      cases hfi : findByte E.m (fun b => b != 0#8 && lowerAscii b.toNat == lowerAscii c) (E.m.length + 1) s with
      | none => rw [hfi] at h; cases h
      | some o' =>
        rw [hfi] at h
        simp only [Option.bind_some, Option.some.injEq] at h
        have hse : some s ≠ E.eol := by
          intro e
          have h0 := he s e.symm
          have := pos_zero h0 (pos_le hp) hb
          rw [show b = s by omega, h0] at hx
          cases hx
          exact hx0 rfl
        rw [if_neg hse] at h
        subst h
        have : ∃ x', E.m[b]? = some x' ∧ (x' != 0#8 && lowerAscii x'.toNat == lowerAscii c) = false := by
          cases o' with
          | none =>
            obtain ⟨k, h1, h2, h3⟩ := find_none _ _ hfi
            have hbk := pos_zero h2 (Nat.le_trans (pos_le hp) h1) hb
            obtain ⟨x', h4, h5, -⟩ := h3 b hsb hbk
            exact ⟨x', h4, h5⟩
          | some k =>
            obtain ⟨-, -, h3⟩ := find_some _ _ _ hfi
            obtain ⟨x', h4, h5, -⟩ := h3 b hsb (hlt k rfl)
            exact ⟨x', h4, h5⟩
        obtain ⟨x', h4, h5⟩ := this
        rw [hx] at h4; cases h4
        simp [hx0, hxc] at h5
    | bol =>
      have hb0 := no_bol hfa hst hb hf
      have hs0 := pos_le hp
      have hse : s = s0 := by omega
      have hbol := (hfa.bol hst).1
      rw [hst] at h
      simp only [startCheck] at h
      rw [if_pos (by omega)] at h
      have := hlt s (Option.some.inj h).symm
      omega

/-- What is known about matches when a position is reached. -/
structure CInv (P : Prog) (E : Env) (s0 s : Nat) (tl : List Thread) (matched : Bool) (mp : Option Match) : Prop where
  hasIff : matched = mp.isSome
  done : ∀ b i n, Pos E s0 b → b < s → F P E n P.start b i → i < s → Rec mp b i
  left : ∀ b i n, Pos E s0 b → b < s → F P E n P.start b i → s ≤ i →
    (∃ t ∈ tl, t.se.start ≤ b ∧ ∃ m', F P E m' t.inst s i) ∨ ∃ m, mp = some m ∧ m.start < b

theorem Fut.toF {P : Prog} {E : Env} {n pc i j : Nat} {σ τ : Se} (h : Fut P E n pc i σ j τ) : F P E n pc i j := by
  induction h with
  | fin a b => exact .fin a b
  | go a b c _ ih => exact .go a b c ih
  | opening a b c _ ih => exact .opening a b c ih
  | closing a b c _ _ ih => exact .closing a b c ih
  | left a b c _ ih => exact .left a b c ih
  | right a b _ ih => exact .right a b ih
  | eat a b c d _ ih => exact .eat a b c d ih

theorem good_le {P : Prog} {E : Env} {s0 : Nat} {b : Match} (h : Good P E s0 b) : b.start ≤ b.stop := by
  obtain ⟨-, k, h⟩ := h
  exact pos_le (F_le h.toF)

/-- The result is the leftmost longest match. -/
def Best (P : Prog) (E : Env) (s0 : Nat) (mp : Option Match) : Prop := ∀ b i n, Pos E s0 b → F P E n P.start b i → Rec mp b i

theorem inject_cover {P : Prog} {s cap : Nat} {matched : Bool} {tl tl' : List Thread} (hi : inject P cap matched tl s = some tl') :
    Cover tl tl' ∧ (matched = false → ∃ t ∈ tl', t.inst = P.start ∧ t.se.start ≤ s) := by
  unfold inject at hi
  cases matched with
  | true => simp only [if_true, Option.some.injEq] at hi; subst hi; exact ⟨Cover.refl _, fun h => by cases h⟩
  | false =>
    simp only [Bool.false_eq_true, if_false, renewEmpty] at hi
    cases hw : renew cap 0 tl P.start ⟨s, noSub⟩ with
    | none => rw [hw] at hi; cases hi
    | some x =>
      rw [hw] at hi
      simp only [Option.map_some, Option.some.injEq] at hi
      subst hi
      obtain ⟨-, h1, h2⟩ := renew_facts hw
      exact ⟨h1, fun _ => h2⟩

theorem loop_complete {P : Prog} {E : Env} {s0 cap : Nat} (hU : Uniform P) (hfa : Fast P E s0) :
    ∀ (f s : Nat) (check : Bool) (tl : List Thread) (ic matched : Bool) (mp : Option Match) (ret : Int) (o : Option Match),
    LInv P E s0 false s tl ic matched mp → CInv P E s0 s tl matched mp → (check = true → tl = []) →
    mainLoop P E false cap f s check tl ic matched mp = some (ret, o) → ret ≠ -1 →
    Best P E s0 o ∧ (ret = 1 ↔ o.isSome)
  | 0, _, _, _, _, _, _, _, _, _, _, _, h, _ => by cases h
  | f + 1, s, check, tl, ic, matched, mp, ret, o, hI, hC, hck, h, hret => by
    have fin : ∀ {mt : Bool} {mp' : Option Match}, (mt = mp'.isSome) → Best P E s0 mp' →
        some ((if mt then 1 else 0 : Int), mp') = some (ret, o) → Best P E s0 o ∧ (ret = 1 ↔ o.isSome) := by
      intro mt mp' h1 h2 h4
      simp only [Option.some.injEq, Prod.mk.injEq] at h4
      obtain ⟨rfl, rfl⟩ := h4
      refine ⟨h2, ?_⟩
      rw [← h1]
      cases mt <;> simp
    rw [mainLoop] at h
    cases hsk : seek P E check s with
    | none => rw [hsk] at h; cases h
    | some os =>
      rw [hsk, Option.bind_some] at h
      have hskip := seek_skip hfa hI.at_ hsk
      cases os with
      | none =>
        refine fin hC.hasIff ?_ h
        have htl : tl = [] := by
          cases check with
          | true => exact hck rfl
          | false => simp [seek] at hsk
        intro b i n hb hf
        by_cases hbs : b < s
        · by_cases his : i < s
          · exact hC.done b i n hb hbs hf his
          · rcases hC.left b i n hb hbs hf (by omega) with ⟨t, ht, -⟩ | ⟨m, hm, hlt⟩
            · rw [htl] at ht; cases ht
            · exact ⟨m, hm, .inl hlt⟩
        · exact absurd hf (hskip b hb (by omega) (by simp) n i)
      | some s' =>
        obtain ⟨hp', hle, hc⟩ := seek_pos hfa.plain hI.at_ hsk
        simp only at h
        -- the invariant at the new position
        have htl : ∀ t ∈ tl, Lv P E s0 t.inst s' t.se := by
          cases check with
          | true => rw [hck rfl]; simp
          | false => rw [hc rfl]; exact hI.live
        have hC' : CInv P E s0 s' tl matched mp := by
          by_cases hss : s' = s
          · rw [hss]; exact hC
          · have htl : tl = [] := by
              cases check with
              | true => exact hck rfl
              | false => exact absurd (hc rfl) hss
            have key : ∀ b i n, Pos E s0 b → b < s' → F P E n P.start b i → Rec mp b i ∧ (s ≤ i → ∃ m, mp = some m ∧ m.start < b) := by
              intro b i n hb hbs hf
              by_cases hbs' : b < s
              · by_cases his : i < s
                · exact ⟨hC.done b i n hb hbs' hf his, fun h => by omega⟩
                · rcases hC.left b i n hb hbs' hf (by omega) with ⟨t, ht, -⟩ | ⟨m, hm, hlt⟩
                  · rw [htl] at ht; cases ht
                  · exact ⟨⟨m, hm, .inl hlt⟩, fun _ => ⟨m, hm, hlt⟩⟩
              · exact absurd hf (hskip b hb (by omega) (by rintro _ ⟨⟩; exact hbs) n i)
            exact ⟨hC.hasIff, fun b i n hb hbs hf _ => (key b i n hb hbs hf).1, fun b i n hb hbs hf hi => .inr ((key b i n hb hbs hf).2 (by omega))⟩
        cases hr : rune E.m s' with
        | none => rw [hr] at h; cases h
        | some rn =>
          obtain ⟨r, n⟩ := rn
          rw [hr, Option.bind_some] at h
          cases hj : inject P cap matched tl s' with
          | none => rw [hj] at h; cases h
          | some tl' =>
            rw [hj, Option.bind_some] at h
            have htl' := inject_sound hp' htl hj
            obtain ⟨hcov, hnew⟩ := inject_cover hj
            cases ht : threads P E false cap s' (cap + 1) 0 tl' ⟨r, ic, [], [], matched, mp⟩ with
            | none => rw [ht] at h; cases h
            | some out =>
              rw [ht, Option.bind_some] at h
              cases out with
              | full =>
                simp only [Option.some.injEq, Prod.mk.injEq] at h
                exact absurd h.1.symm hret
              | ok q =>
                have hS := threads_sound hU hr _ _ _ _ q htl' (⟨.inl rfl, hI.icase, by simp, by simp, hI.good, hI.has, hI.fullOk, fun b hb => Nat.le_trans (Nat.le_of_lt (hI.stop b hb)) hle⟩ : Snd P E s0 false s' r n ⟨r, ic, [], [], matched, mp⟩) ht
                obtain ⟨t1, t2, -, t4, t5, t6⟩ := threads_complete hU hr _ _ _ _ q (.inl rfl) hI.icase ht
                simp only at h t4
                have hn1 := (rune_facts hr).1
                -- every match beginning here or before
                have key : ∀ b i k, Pos E s0 b → b ≤ s' → F P E k P.start b i →
                    Rec q.mp b i ∨ (s' + n ≤ i ∧ ∃ t ∈ q.nl, t.se.start ≤ b ∧ ∃ m', F P E m' t.inst (s' + n) i) := by
                  intro b i k hb hbs hf
                  have fromT : ∀ t ∈ tl', t.se.start ≤ b → ∀ m', F P E m' t.inst s' i → 
                      Rec q.mp b i ∨ (s' + n ≤ i ∧ ∃ t ∈ q.nl, t.se.start ≤ b ∧ ∃ m', F P E m' t.inst (s' + n) i) := by
                    intro t ht hlt m' hf'
                    rcases t6 t ht m' i hf' with ⟨rfl, hrec⟩ | ⟨u, hu, lu, m'', hf''⟩
                    · exact .inl (hrec.mono hlt)
                    · exact .inr ⟨pos_le (F_le hf''), u, hu, by omega, m'', hf''⟩
                  by_cases hbs' : b < s'
                  · by_cases his : i < s'
                    · exact .inl (t4 _ _ (hC'.done b i k hb hbs' hf his))
                    · rcases hC'.left b i k hb hbs' hf (by omega) with ⟨t, ht, hlt, m', hf'⟩ | ⟨m, hm, hlt⟩
                      · obtain ⟨u, hu, eu, lu⟩ := hcov t ht
                        exact fromT u hu (by omega) m' (by rw [eu]; exact hf')
                      · exact .inl (t4 _ _ ⟨m, hm, .inl hlt⟩)
                  · have : b = s' := by omega
                    subst this
                    cases hm : matched with
                    | false =>
                      obtain ⟨u, hu, eu, lu⟩ := hnew hm
                      exact fromT u hu lu k (by rw [eu]; exact hf)
                    | true =>
                      have := hC'.hasIff
                      rw [hm] at this
                      obtain ⟨m, hm'⟩ := Option.isSome_iff_exists.1 this.symm
                      have h1 := hI.stop m hm'
                      have h2 := good_le (hI.good m hm')
                      exact .inl (t4 _ _ ⟨m, hm', .inl (by omega)⟩)
                by_cases hend : some s' = E.eol ∨ q.r = 0
                · rw [if_pos hend] at h
                  refine fin (t5 hC.hasIff) ?_ h
                  have nostep : ∀ x, ¬ Step E s' x := by
                    rintro x ⟨r', n', h1, h2, h3, -⟩
                    rw [hr] at h1; cases h1
                    rcases hend with hend | hend
                    · exact h3 hend
                    · exact h2 ((same_zero t1).1 hend)
                  have last : ∀ b, Pos E s0 b → b ≤ s' := by
                    intro b hb
                    rcases pos_linear hp' hb with h | h
                    · rcases pos_head h with rfl | ⟨y, h1, -⟩
                      · exact Nat.le_refl _
                      · exact absurd h1 (nostep y)
                    · exact pos_le h
                  intro b i k hb hf
                  rcases key b i k hb (last b hb) hf with h | ⟨h, -⟩
                  · exact h
                  · have := last i (pos_trans hb (F_le hf))
                    omega
                · rw [if_neg hend] at h
                  have h1 : some s' ≠ E.eol := fun x => hend (.inl x)
                  have h2 : r ≠ 0 := fun x => hend (.inr ((same_zero hS.same).2 x))
                  have hstep : Step E s' (s' + n) := ⟨r, n, hr, h2, h1, rfl⟩
                  have near : ∀ b, Pos E s0 b → b < s' + n → b ≤ s' := by
                    intro b hb hlt
                    by_contra hgt
                    have := pos_next hb hp' hstep (by omega)
                    omega
                  refine loop_complete hU hfa f _ _ _ _ _ _ _ _ ⟨.step hp' hstep, hS.ic, hS.nl h2 h1, hS.mp, hS.has, hS.fullOk, fun b hb => by have := hS.stop b hb; omega⟩ ⟨t5 hC.hasIff, ?_, ?_⟩ ?_ h hret
                  · intro b i k hb hbs hf his
                    rcases key b i k hb (near b hb hbs) hf with h | ⟨h, -⟩
                    · exact h
                    · omega
                  · intro b i k hb hbs hf his
                    rcases key b i k hb (near b hb hbs) hf with ⟨m, hm, h⟩ | ⟨-, h⟩
                    · rcases h with h | ⟨-, h⟩
                      · exact .inr ⟨m, hm, h⟩
                      · have := hS.stop m hm; omega
                    · exact .inl h
                  · intro hx
                    simp only [Bool.and_eq_true, List.isEmpty_iff] at hx
                    exact hx.2

/-- **Completeness.** Without `FULLMATCH`, and unless the lists are too small, a match is found whenever
there is one, and no match begins earlier, or begins at the same place and ends later. -/
theorem exec1_complete {P : Prog} {E : Env} {s0 cap : Nat} {ret : Int} {o : Option Match} (hU : Uniform P) (hfa : Fast P E s0)
    (h : exec1 P E false cap s0 = some (ret, o)) (hret : ret ≠ -1) : Best P E s0 o ∧ (ret = 1 ↔ o.isSome) := by
  refine loop_complete hU hfa (E.m.length + 2) s0 true [] P.icase false none ret o ⟨.here, rfl, by simp, by simp, by simp, by simp, by simp⟩ ⟨rfl, ?_, ?_⟩ (fun _ => rfl) h hret
  · intro b i n hb hlt; have := pos_le hb; omega
  · intro b i n hb hlt; have := pos_le hb; omega

end Verif.Regex
