import Verif.Regex.Nfa
import Verif.Utf8.Lemmas
/- The characters of a text, the search for a byte, and the positions of characters. -/
namespace Verif.Regex
open Verif.Utf8 (Byte casefold decodeCp dcpLoop D decode okState nx Chain)

theorem nx_ascii {st n : Nat} (h : okState st) (hn : n < 0x80) : nx st n = some 12 := by
  have ht := Verif.Utf8.nx_tab n (by omega)
  have hc : ¬ Verif.Utf8.isCont n := fun x => by have := x.1; omega
  simp only [okState, List.mem_cons, List.not_mem_nil, or_false] at h
  rcases h with rfl | rfl | rfl | rfl | rfl | rfl | rfl
  · rw [ht.2.1, if_neg hc]
  · rw [ht.2.2.1, if_neg hc]
  · rw [ht.2.2.2.1, if_neg (by omega)]
  · rw [ht.2.2.2.2.1, if_neg (by omega)]
  · rw [ht.2.2.2.2.2.1, if_neg (by omega)]
  · rw [ht.2.2.2.2.2.2.1, if_neg hc]
  · rw [ht.2.2.2.2.2.2.2, if_neg (by omega)]

theorem decode_state {st cp : Nat} {b : Byte} {d' : D} (h : decode ⟨st, cp⟩ b = some d') : nx st b.toNat = some d'.state := by
  have := Verif.Utf8.decode_nx ⟨st, cp⟩ b
  rw [h] at this
  exact this.symm

/-- Inside a sequence: what is consumed further are continuation bytes. -/
theorem dcp_cont {avail : Nat} : ∀ (m : List Byte) (d : D) (k : Nat) (x : D) (n : Nat), okState d.state → 1 ≤ k → k + m.length < avail →
    dcpLoop avail d m k = some (x, n) → 1 ≤ n ∧ n ≤ k + m.length ∧ ∀ i, k ≤ i → i < n → ∃ b, m[i - k]? = some b ∧ 0x80 ≤ b.toNat
  | [], d, k, x, n, _, _, _, h => by cases h
  | b :: m, ⟨st, cp⟩, k, x, n, hs, hk, ha, h => by
    obtain ⟨d', e, h3, -⟩ := Verif.Utf8.decode_total (cp := cp) (.inr hs) b
    rw [dcpLoop] at h
    simp only [e, Option.bind_eq_bind, Option.bind_some] at h
    simp only [List.length_cons] at ha ⊢
    have hnx := decode_state e
    have hb : d'.state ≠ 12 → 0x80 ≤ b.toNat := by
      intro hne
      by_contra hlt
      have := nx_ascii (st := st) hs (Nat.lt_of_not_le hlt)
      rw [hnx] at this
      exact hne (Option.some.inj this)
    by_cases c0 : d'.state = 0
    · rw [if_pos c0] at h
      simp only [Option.some.injEq, Prod.mk.injEq] at h
      obtain ⟨-, rfl⟩ := h
      refine ⟨by omega, by omega, fun i h1 h2 => ⟨b, ?_, hb (by omega)⟩⟩
      rw [show i - k = 0 by omega]; rfl
    rw [if_neg c0] at h
    by_cases c1 : d'.state = 12
    · rw [if_pos c1] at h
      simp only [Option.some.injEq, Prod.mk.injEq] at h
      obtain ⟨-, rfl⟩ := h
      unfold Verif.Utf8.recover
      refine ⟨by split <;> omega, by split <;> omega, fun i h1 h2 => ?_⟩
      split at h2 <;> omega
    rw [if_neg c1, if_neg (by omega)] at h
    obtain ⟨i1, i2, i3⟩ := dcp_cont m d' (k + 1) x n (by rcases h3 with h | h | h; exacts [absurd h c0, absurd h c1, h]) (by omega) (by omega) h
    refine ⟨i1, by omega, fun i h1 h2 => ?_⟩
    by_cases hi : i = k
    · subst hi; exact ⟨b, by simp, hb c1⟩
    · obtain ⟨b', h4, h5⟩ := i3 i (by omega) h2
      refine ⟨b', ?_, h5⟩
      rw [show i - k = (i - (k + 1)) + 1 by omega]; simpa using h4

/-- The result is the replacement character or what the bytes encode. -/
theorem dcp_val {avail : Nat} : ∀ (m : List Byte) (d : D) (k : Nat) (x : D) (n : Nat), d.state = 0 ∨ okState d.state →
    dcpLoop avail d m k = some (x, n) → x.codep = 0xFFFD ∨ ∃ bs, Chain d bs x.codep ∧ n = k + bs.length ∧ bs <+: m
  | [], d, k, x, n, _, h => by cases h
  | b :: m, ⟨st, cp⟩, k, x, n, hs, h => by
    obtain ⟨d', e, h3, h4⟩ := Verif.Utf8.decode_total (cp := cp) hs b
    rw [dcpLoop] at h
    simp only [e, Option.bind_eq_bind, Option.bind_some] at h
    by_cases c0 : d'.state = 0
    · rw [if_pos c0] at h
      simp only [Option.some.injEq, Prod.mk.injEq] at h
      obtain ⟨rfl, rfl⟩ := h
      refine .inr ⟨[b], ?_, rfl, by simp⟩
      rw [Chain, e, ← c0]
    rw [if_neg c0] at h
    by_cases c1 : d'.state = 12
    · rw [if_pos c1] at h
      simp only [Option.some.injEq, Prod.mk.injEq] at h
      obtain ⟨rfl, rfl⟩ := h
      exact .inl rfl
    rw [if_neg c1] at h
    by_cases c2 : k + 1 = avail
    · rw [if_pos c2] at h
      simp only [Option.some.injEq, Prod.mk.injEq] at h
      obtain ⟨rfl, rfl⟩ := h
      exact .inl rfl
    rw [if_neg c2] at h
    rcases dcp_val m d' (k + 1) x n (by rcases h3 with h | h | h; exacts [.inl h, absurd h c1, .inr h]) h with h5 | ⟨bs, hb, hn, hp⟩
    · exact .inl h5
    · refine .inr ⟨b :: bs, ?_, by simp; omega, List.cons_prefix_cons.2 ⟨rfl, hp⟩⟩
      match bs, hb with
      | b' :: bs, hb => exact ⟨d', e, h4 c0 c1, hb⟩

/-- A byte below 0x80 ends the decoding. -/
theorem dcp_def {avail : Nat} : ∀ (m : List Byte) (d : D) (k i : Nat) (c : Byte), d.state = 0 ∨ okState d.state →
    m[i]? = some c → c.toNat < 0x80 → ∃ x n, dcpLoop avail d m k = some (x, n)
  | [], d, k, i, c, _, h, _ => by simp at h
  | b :: m, ⟨st, cp⟩, k, i, c, hs, h, hc => by
    obtain ⟨d', e, h3, -⟩ := Verif.Utf8.decode_total (cp := cp) hs b
    rw [dcpLoop]
    simp only [e, Option.bind_eq_bind, Option.bind_some]
    by_cases c0 : d'.state = 0
    · rw [if_pos c0]; exact ⟨_, _, rfl⟩
    rw [if_neg c0]
    by_cases c1 : d'.state = 12
    · rw [if_pos c1]; exact ⟨_, _, rfl⟩
    rw [if_neg c1]
    by_cases c2 : k + 1 = avail
    · rw [if_pos c2]; exact ⟨_, _, rfl⟩
    rw [if_neg c2]
    cases i with
    | zero =>
      simp only [List.getElem?_cons_zero, Option.some.injEq] at h
      subst h
      have hnx := decode_state e
      rcases hs with hs | hs
      · simp only at hs; subst hs
        rw [(Verif.Utf8.nx_tab b.toNat b.isLt).1, if_pos hc] at hnx
        exact absurd (Option.some.inj hnx).symm c0
      · rw [nx_ascii hs hc] at hnx
        exact absurd (Option.some.inj hnx).symm c1
    | succ i =>
      exact dcp_def m d' (k + 1) i c (by rcases h3 with h | h | h; exacts [.inl h, absurd h c1, .inr h]) (by simpa using h) hc

theorem rune_facts {m : List Byte} {s r n : Nat} (h : rune m s = some (r, n)) :
    1 ≤ n ∧ s + n ≤ m.length ∧ (∀ i, s < i → i < s + n → ∃ b, m[i]? = some b ∧ 0x80 ≤ b.toNat) ∧
    ∃ b, m[s]? = some b ∧ (r = 0 ↔ b = 0#8) ∧ (b.toNat < 0x80 → r = b.toNat ∧ n = 1) ∧ (0x80 ≤ b.toNat → 0x80 ≤ r) := by
  unfold rune at h
  cases hb : m[s]? with
  | none => rw [hb] at h; cases h
  | some b =>
    rw [hb, Option.bind_some] at h
    have hlt : s < m.length := (List.getElem?_eq_some_iff.1 hb).1
    have hz : b.toNat = 0 ↔ b = 0#8 := ⟨fun h => BitVec.eq_of_toNat_eq h, fun h => by rw [h]; rfl⟩
    by_cases hc : b.toNat < 0x80
    · rw [if_pos hc] at h
      simp only [Option.some.injEq, Prod.mk.injEq] at h
      obtain ⟨rfl, rfl⟩ := h
      exact ⟨Nat.le_refl _, by omega, fun i h1 h2 => by omega, b, rfl, hz, fun _ => ⟨rfl, rfl⟩, fun h => h⟩
    · rw [if_neg hc] at h
      have hd : m.drop s = b :: m.drop (s + 1) := by
        rw [List.drop_eq_getElem_cons hlt]
        rw [(List.getElem?_eq_some_iff.1 hb).2]
      unfold decodeCp at h
      cases hl : dcpLoop (m.length + 1) ⟨0, 0⟩ (m.drop s) 0 with
      | none => simp [hl] at h
      | some y =>
        obtain ⟨x, n'⟩ := y
        simp only [hl, Option.bind_eq_bind, Option.bind_some, Option.some.injEq, Prod.mk.injEq] at h
        obtain ⟨rfl, rfl⟩ := h
        have hr : 0x80 ≤ x.codep := by
          rcases dcp_val _ _ _ _ _ (.inl rfl) hl with h | ⟨bs, h1, h2, h3⟩
          · omega
          · obtain ⟨h4, h5⟩ := (Verif.Utf8.chain_iff bs).1 h1
            by_contra hlt2
            have : x.codep < 0x80 := by omega
            rw [Verif.Utf8.Spec.enc, if_pos this] at h5
            rw [h5, hd] at h3
            have := (List.cons_prefix_cons.1 h3).1
            rw [← this, Verif.Utf8.toNat_ofNat8 (by omega)] at hc
            omega
        refine ⟨?_, ?_, ?_, b, rfl, ?_, fun h => absurd h hc, fun _ => hr⟩
        all_goals rw [hd, dcpLoop] at hl
        all_goals obtain ⟨d', e, h3, -⟩ := Verif.Utf8.decode_total (cp := 0) (.inl rfl) b
        all_goals simp only [e, Option.bind_eq_bind, Option.bind_some] at hl
        all_goals (by_cases c0 : d'.state = 0)
        all_goals first | rw [if_pos c0] at hl | rw [if_neg c0] at hl
        all_goals try simp only [Option.some.injEq, Prod.mk.injEq] at hl
        · omega
        · by_cases c1 : d'.state = 12
          · rw [if_pos c1] at hl
            simp only [Option.some.injEq, Prod.mk.injEq, show Verif.Utf8.recover (0 + 1) = 1 from rfl] at hl
            omega
          · rw [if_neg c1, if_neg (by omega)] at hl
            exact (dcp_cont _ _ _ _ _ (by rcases h3 with h | h | h; exacts [absurd h c0, absurd h c1, h]) (by omega) (by simp; omega) hl).1
        · omega
        · by_cases c1 : d'.state = 12
          · rw [if_pos c1] at hl
            simp only [Option.some.injEq, Prod.mk.injEq, show Verif.Utf8.recover (0 + 1) = 1 from rfl] at hl
            omega
          · rw [if_neg c1, if_neg (by omega)] at hl
            have := (dcp_cont _ _ _ _ _ (by rcases h3 with h | h | h; exacts [absurd h c0, absurd h c1, h]) (by omega) (by simp; omega) hl).2.1
            simp only [List.length_drop] at this
            omega
        · intro i h1 h2; omega
        · by_cases c1 : d'.state = 12
          · rw [if_pos c1] at hl
            simp only [Option.some.injEq, Prod.mk.injEq, show Verif.Utf8.recover (0 + 1) = 1 from rfl] at hl
            intro i h1 h2
            omega
          · rw [if_neg c1, if_neg (by omega)] at hl
            have := (dcp_cont _ _ _ _ _ (by rcases h3 with h | h | h; exacts [absurd h c0, absurd h c1, h]) (by omega) (by simp; omega) hl).2.2
            intro i h1 h2
            obtain ⟨b', h4, h5⟩ := this (i - s) (by omega) (by omega)
            rw [List.getElem?_drop] at h4
            refine ⟨b', ?_, h5⟩
            rw [← h4]; congr 1; omega
        · have : b ≠ 0#8 := fun h => hc (by rw [h]; decide)
          constructor
          · intro h; omega
          · intro h; exact absurd h this
        · have : b ≠ 0#8 := fun h => hc (by rw [h]; decide)
          constructor
          · intro h; omega
          · intro h; exact absurd h this

theorem rune_def {m : List Byte} {s k : Nat} {c : Byte} (hk : s ≤ k) (h : m[k]? = some c) (hc : c.toNat < 0x80) :
    ∃ r n, rune m s = some (r, n) := by
  have hlt : k < m.length := (List.getElem?_eq_some_iff.1 h).1
  unfold rune
  rw [List.getElem?_eq_getElem (by omega : s < m.length), Option.bind_some]
  split
  · exact ⟨_, _, rfl⟩
  · have : (m.drop s)[k - s]? = some c := by rw [List.getElem?_drop, ← h]; congr 1; omega
    obtain ⟨x, n, e⟩ := dcp_def (avail := m.length + 1) (m.drop s) ⟨0, 0⟩ 0 (k - s) c (.inl rfl) this hc
    exact ⟨x.codep, n, by simp [decodeCp, e]⟩

/-! ### the search for a byte -/

theorem find_some {m : List Byte} {p : Byte → Bool} : ∀ (f s k : Nat), findByte m p f s = some (some k) →
    s ≤ k ∧ (∃ b, m[k]? = some b ∧ p b = true) ∧ ∀ i, s ≤ i → i < k → ∃ b, m[i]? = some b ∧ p b = false ∧ b ≠ 0#8
  | 0, _, _, h => by cases h
  | f + 1, s, k, h => by
    rw [findByte] at h
    cases hb : m[s]? with
    | none => rw [hb] at h; cases h
    | some b =>
      rw [hb, Option.bind_some] at h
      by_cases hp : p b = true
      · rw [if_pos hp] at h
        simp only [Option.some.injEq] at h
        subst h
        exact ⟨Nat.le_refl _, ⟨b, hb, hp⟩, fun i h1 h2 => by omega⟩
      · rw [if_neg hp] at h
        by_cases hz : b = 0#8
        · rw [if_pos hz] at h; simp at h
        · rw [if_neg hz] at h
          obtain ⟨h1, h2, h3⟩ := find_some f (s + 1) k h
          refine ⟨by omega, h2, fun i h4 h5 => ?_⟩
          by_cases hi : i = s
          · subst hi; exact ⟨b, hb, by simpa using hp, hz⟩
          · exact h3 i (by omega) h5

theorem find_none {m : List Byte} {p : Byte → Bool} : ∀ (f s : Nat), findByte m p f s = some none →
    ∃ k, s ≤ k ∧ m[k]? = some 0#8 ∧ ∀ i, s ≤ i → i ≤ k → ∃ b, m[i]? = some b ∧ p b = false ∧ (i < k → b ≠ 0#8)
  | 0, _, h => by cases h
  | f + 1, s, h => by
    rw [findByte] at h
    cases hb : m[s]? with
    | none => rw [hb] at h; cases h
    | some b =>
      rw [hb, Option.bind_some] at h
      by_cases hp : p b = true
      · rw [if_pos hp] at h; simp at h
      · rw [if_neg hp] at h
        by_cases hz : b = 0#8
        · subst hz
          refine ⟨s, Nat.le_refl _, hb, fun i h1 h2 => ?_⟩
          have : i = s := by omega
          subst this
          exact ⟨_, hb, by simpa using hp, fun h => by omega⟩
        · rw [if_neg hz] at h
          obtain ⟨k, h1, h2, h3⟩ := find_none f (s + 1) h
          refine ⟨k, by omega, h2, fun i h4 h5 => ?_⟩
          by_cases hi : i = s
          · subst hi; exact ⟨b, hb, by simpa using hp, fun _ => hz⟩
          · exact h3 i (by omega) h5

theorem find_def {m : List Byte} {p : Byte → Bool} {z : Nat} (hz : m[z]? = some 0#8) : ∀ (f s : Nat), s ≤ z → z < s + f →
    ∃ o, findByte m p f s = some o
  | 0, _, _, _ => by omega
  | f + 1, s, h1, h2 => by
    have hlt : z < m.length := (List.getElem?_eq_some_iff.1 hz).1
    rw [findByte, List.getElem?_eq_getElem (by omega : s < m.length), Option.bind_some]
    split
    · exact ⟨_, rfl⟩
    · split
      · exact ⟨_, rfl⟩
      · rename_i hne
        refine find_def hz f (s + 1) ?_ (by omega)
        by_contra h
        have : s = z := by omega
        subst this
        rw [List.getElem?_eq_getElem hlt] at hz
        exact hne (Option.some.inj hz)

/-! ### positions -/

theorem step_unique {E : Env} {i a b : Nat} (h : Step E i a) (h' : Step E i b) : a = b := by
  obtain ⟨r, n, h1, -, -, rfl⟩ := h
  obtain ⟨r', n', h2, -, -, rfl⟩ := h'
  rw [h1] at h2; cases h2; rfl

theorem step_lt {E : Env} {i a : Nat} (h : Step E i a) : i < a := by
  obtain ⟨r, n, h1, -, -, rfl⟩ := h
  have := (rune_facts h1).1
  omega

theorem pos_le {E : Env} {s i : Nat} (h : Pos E s i) : s ≤ i := by
  induction h with
  | here => exact Nat.le_refl _
  | step _ h ih => have := step_lt h; omega

theorem pos_head {E : Env} {x b : Nat} (h : Pos E x b) : b = x ∨ ∃ y, Step E x y ∧ Pos E y b := by
  induction h with
  | here => exact .inl rfl
  | @step i i' hi hst ih =>
    rcases ih with rfl | ⟨y, h1, h2⟩
    · exact .inr ⟨i', hst, .here⟩
    · exact .inr ⟨y, h1, .step h2 hst⟩

theorem pos_trans {E : Env} {a b c : Nat} (h : Pos E a b) (h' : Pos E b c) : Pos E a c := by
  induction h' with
  | here => exact h
  | step _ hst ih => exact .step ih hst

theorem pos_linear {E : Env} {s i b : Nat} (hi : Pos E s i) (hb : Pos E s b) : Pos E i b ∨ Pos E b i := by
  induction hi with
  | here => exact .inl hb
  | @step x y _ hxy ih =>
    rcases ih with h | h
    · rcases pos_head h with rfl | ⟨z, h1, h2⟩
      · exact .inr (.step .here hxy)
      · rw [step_unique hxy h1]; exact .inl h2
    · exact .inr (.step h hxy)

/-- Between a position and the next there is none. -/
theorem pos_next {E : Env} {s i b b' : Nat} (hi : Pos E s i) (hb : Pos E s b) (hst : Step E b b') (hlt : b < i) : b' ≤ i := by
  rcases pos_linear hi hb with h | h
  · have := pos_le h; omega
  · rcases pos_head h with rfl | ⟨y, h1, h2⟩
    · omega
    · rw [step_unique hst h1]; exact pos_le h2

/-- The text ends with a terminator, also if it is given as a view. -/
def Soft (E : Env) : Prop := ∀ z, E.eol = some z → E.m[z]? = some 0#8

theorem Soft.of_none {E : Env} (h : E.eol = none) : Soft E := fun z hz => by rw [h] at hz; cases hz

/-- An ASCII byte that is not behind the terminator is the position of a character. -/
theorem pos_ascii {E : Env} (he : Soft E) {s0 k : Nat} {c : Byte} (hk : E.m[k]? = some c) (hc : c.toNat < 0x80) :
    ∀ (d s : Nat), d = k - s → s ≤ k → Pos E s0 s → (∀ i, s ≤ i → i < k → ∃ b, E.m[i]? = some b ∧ b ≠ 0#8) → Pos E s0 k := by
  intro d
  induction d using Nat.strongRecOn with
  | _ d ih =>
    intro s hd hs hp hz
    by_cases e : s = k
    · rw [← e]; exact hp
    obtain ⟨r, n, hr⟩ := rune_def hs hk hc
    obtain ⟨f1, f2, f3, b, f4, f5, -⟩ := rune_facts hr
    obtain ⟨b', h1, h2⟩ := hz s (Nat.le_refl _) (by omega)
    rw [f4] at h1; cases h1
    have hle : s + n ≤ k := by
      by_contra hlt
      obtain ⟨b'', h3, h4⟩ := f3 k (by omega) (by omega)
      rw [hk] at h3; cases h3
      omega
    exact ih (k - (s + n)) (by omega) (s + n) rfl hle (.step hp ⟨r, n, hr, fun h => h2 (f5.1 h), fun h => by rw [he s h.symm] at f4; cases f4; exact h2 rfl, rfl⟩)
      (fun i h3 h4 => hz i (by omega) h4)

/-- Positions do not pass the terminator. -/
theorem pos_zero {E : Env} {s0 z : Nat} (hz : E.m[z]? = some 0#8) (h0 : s0 ≤ z) {b : Nat} (hb : Pos E s0 b) : b ≤ z := by
  induction hb with
  | here => exact h0
  | @step i i' hi hst ih =>
    obtain ⟨r, n, hr, hr0, -, rfl⟩ := hst
    obtain ⟨f1, f2, f3, b, f4, f5, -⟩ := rune_facts hr
    by_contra hlt
    by_cases e : i = z
    · subst e
      rw [f4] at hz; cases hz
      exact hr0 (f5.2 rfl)
    · obtain ⟨b'', h3, h4⟩ := f3 z (by omega) (by omega)
      rw [hz] at h3; cases h3
      simp at h4

theorem F_le {P : Prog} {E : Env} {n pc i j : Nat} (h : F P E n pc i j) : Pos E i j := by
  induction h with
  | fin => exact .here
  | go _ _ _ _ ih => exact ih
  | opening _ _ _ _ ih => exact ih
  | closing _ _ _ _ ih => exact ih
  | left _ _ _ _ ih => exact ih
  | right _ _ _ ih => exact ih
  | eat _ _ _ h _ ih => exact pos_trans (.step .here h) ih

end Verif.Regex
