import Verif.Regex.Lex
import Verif.Regex.Safe
import Mathlib.Tactic.Common
/- The lexer reads no further than the terminator, unless the pattern ends inside a quotation. -/
namespace Verif.Regex
open Spec (Tok Re G)

/-- The pattern does not end with an unquoted backslash, and `\Q` is followed by `\E`. -/
def Closed : Bool → List Nat → Bool
  | lit, [] => !lit
  | false, [c] => c != 92
  | true, [_] => false
  | false, 92 :: 81 :: r => Closed true r
  | false, c :: d :: r => if c = 92 then Closed false r else Closed false (d :: r)
  | true, 92 :: 69 :: r => Closed false r
  | true, _ :: d :: r => Closed true (d :: r)

/-- The lexer can go on reading. -/
def Ok (lit : Bool) (rest : List Nat) : Prop := ∃ cs, rest = cs ++ [0] ∧ 0 ∉ cs ∧ Closed lit cs = true

theorem closed_cons {lit : Bool} {c : Nat} {r : List Nat} (hc : c ≠ 92) : Closed lit (c :: r) = Closed lit r := by
  cases r with
  | nil => cases lit <;> simp [Closed, hc]
  | cons d r =>
    cases lit
    · rw [Closed]
      · simp [hc]
      · intro h1 h2; exact hc h1
    · rw [Closed]
      intro h1 h2; exact hc h1

theorem closed_skip {lit : Bool} : ∀ {w r : List Nat}, 92 ∉ w → Closed lit (w ++ r) = Closed lit r
  | [], _, _ => rfl
  | c :: w, r, h => by
    rw [List.cons_append, closed_cons (by rintro rfl; simp at h), closed_skip (by simp at h; exact h.2)]

theorem Ok.skip {lit : Bool} {w r : List Nat} (h : Ok lit (w ++ r)) (h1 : 92 ∉ w) (h2 : 0 ∉ w) : Ok lit r := by
  obtain ⟨cs, e, h0, hc⟩ := h
  have hr : r ≠ [] := by
    rintro rfl
    rw [List.append_nil] at e
    exact h2 (by rw [e]; simp)
  obtain ⟨r', z, rfl⟩ := (List.eq_nil_or_concat r).resolve_left hr
  rw [List.concat_eq_append, ← List.append_assoc] at e
  obtain ⟨e1, e2⟩ := List.append_inj' e rfl
  simp only [List.cons.injEq, and_true] at e2
  subst e2 e1
  refine ⟨r', by simp, fun h => h0 (by simp [h]), ?_⟩
  rw [closed_skip h1] at hc
  exact hc

theorem hexDigits_split : ∀ s, ∃ w, s = w ++ (hexDigits s).2 ∧ 92 ∉ w ∧ 0 ∉ w
  | [] => ⟨[], rfl, by simp, by simp⟩
  | c :: cs => by
    rw [hexDigits]
    cases h : hexVal c with
    | none => exact ⟨[], rfl, by simp, by simp⟩
    | some d =>
      obtain ⟨w, h1, h2, h3⟩ := hexDigits_split cs
      refine ⟨c :: w, by simp only [List.cons_append]; rw [← h1], ?_, ?_⟩
      · rw [List.mem_cons]; rintro (e | e)
        · subst e; simp [hexVal] at h
        · exact h2 e
      · rw [List.mem_cons]; rintro (e | e)
        · subst e; simp [hexVal] at h
        · exact h3 e

theorem skipSpace_split : ∀ s, ∃ w, s = w ++ skipSpace s ∧ 92 ∉ w ∧ 0 ∉ w
  | [] => ⟨[], rfl, by simp, by simp⟩
  | c :: cs => by
    rw [skipSpace]
    split
    · rename_i h
      obtain ⟨w, h1, h2, h3⟩ := skipSpace_split cs
      refine ⟨c :: w, by simp only [List.cons_append]; rw [← h1], ?_, ?_⟩
      · rw [List.mem_cons]; rintro (e | e)
        · omega
        · exact h2 e
      · rw [List.mem_cons]; rintro (e | e)
        · omega
        · exact h3 e
    · exact ⟨[], rfl, by simp, by simp⟩

theorem skip0x_split (s : List Nat) : ∃ w, s = w ++ skip0x s ∧ 92 ∉ w ∧ 0 ∉ w := by
  unfold skip0x
  split
  · split
    · rename_i x d cs h
      exact ⟨[48, x], rfl, by simp; omega, by simp; omega⟩
    · exact ⟨[], rfl, by simp, by simp⟩
  · exact ⟨[], rfl, by simp, by simp⟩

theorem sign_split (s : List Nat) : ∃ w, s = w ++ (sign s).2 ∧ 92 ∉ w ∧ 0 ∉ w := by
  unfold sign
  split
  · exact ⟨[45], rfl, by simp, by simp⟩
  · exact ⟨[43], rfl, by simp, by simp⟩
  · exact ⟨[], rfl, by simp, by simp⟩

theorem strtol16_split (s : List Nat) : ∃ w, s = w ++ (strtol16 s).2 ∧ 92 ∉ w ∧ 0 ∉ w := by
  obtain ⟨w1, a1, a2, a3⟩ := skipSpace_split s
  obtain ⟨w2, b1, b2, b3⟩ := sign_split (skipSpace s)
  obtain ⟨w3, c1, c2, c3⟩ := skip0x_split (sign (skipSpace s)).2
  obtain ⟨w4, d1, d2, d3⟩ := hexDigits_split (skip0x (sign (skipSpace s)).2)
  unfold strtol16
  simp only
  split
  · exact ⟨[], rfl, by simp, by simp⟩
  · refine ⟨w1 ++ (w2 ++ (w3 ++ w4)), ?_, ?_, ?_⟩
    · simp only [List.append_assoc]
      rw [← d1, ← c1, ← b1, ← a1]
    · simp only [List.mem_append]; rintro (h | h | h | h)
      exacts [a2 h, b2 h, c2 h, d2 h]
    · simp only [List.mem_append]; rintro (h | h | h | h)
      exacts [a3 h, b3 h, c3 h, d3 h]

/-- What `_nextc` leaves: the end, or something to go on with. -/
def NextOk (s : List Nat) (y : Bool × Nat × Bool × List Nat) : Prop :=
  (y.1 = false ∧ y.2.1 = 0 ∧ y.2.2.1 = false ∧ y.2.2.2 = []) ∨
  (Ok y.2.2.1 y.2.2.2 ∧ y.2.2.2.length < s.length ∧ (∃ w, s = w ++ y.2.2.2 ∧ (y.1 = false → y.2.1 ∈ w)) ∧ (y.1 = false → y.2.1 ≠ 0 ∧ y.2.2.1 = false))

theorem NextOk.mono {s : List Nat} {w : List Nat} {y : Bool × Nat × Bool × List Nat} (h : NextOk s y) : NextOk (w ++ s) y := by
  rcases h with h | ⟨h1, h2, ⟨u, h3, h4⟩, h5⟩
  · exact .inl h
  · exact .inr ⟨h1, by simp; omega, ⟨w ++ u, by rw [h3, List.append_assoc], fun h => by simp [h4 h]⟩, h5⟩

theorem nextc_safe : ∀ (k : Nat) (lit : Bool) (rest : List Nat), rest.length ≤ k → Ok lit rest → (nextc lit rest).Safe (NextOk rest)
  | 0, _, rest, hk, h => by
    obtain ⟨cs, rfl, -⟩ := h
    simp at hk
  | k + 1, lit, rest, hk, h => by
    obtain ⟨cs, rfl, h0, hc⟩ := h
    cases cs with
    | nil =>
      cases lit
      · simp [nextc, R.Safe, NextOk]
      · simp [Closed] at hc
    | cons c cs =>
      have hc0 : c ≠ 0 := fun e => h0 (by simp [e])
      have h0' : 0 ∉ cs := fun e => h0 (by simp [e])
      cases cs with
      | nil =>
        have h92 : c ≠ 92 := by rintro rfl; cases lit <;> simp [Closed] at hc
        rw [closed_cons h92] at hc
        simp only [List.cons_append, List.nil_append, nextc, if_neg h92]
        exact .inr ⟨⟨[], rfl, by simp, hc⟩, by simp, ⟨[c], rfl, fun _ => by simp⟩, fun h => ⟨hc0, h⟩⟩
      | cons d ds =>
        have hd0 : d ≠ 0 := fun e => h0' (by simp [e])
        have h0'' : 0 ∉ ds := fun e => h0' (by simp [e])
        simp only [List.cons_append] at hk ⊢
        rw [nextc]
        simp only [List.length_cons, List.length_append, List.length_nil] at hk
        split
        · rename_i hb
          subst hb
          cases lit
          · simp only [Bool.false_eq_true, if_false]
            split
            · rename_i hq
              subst hq
              rw [Closed] at hc
              exact (nextc_safe k true (ds ++ [0]) (by simp; omega) ⟨ds, rfl, h0'', hc⟩).mono fun y hy => hy.mono (w := [92, 81])
            · rename_i hq
              have hcl : Closed false ds = true := by
                rw [Closed] at hc
                · simpa using hc
                · intro h1 h2; exact hq h2
              split
              · rename_i hx
                obtain ⟨w, e1, e2, e3⟩ := strtol16_split (ds ++ [0]).tail
                have hds : ds ++ [0] = 123 :: (ds ++ [0]).tail := by
                  cases ds with
                  | nil => simp at hx
                  | cons a ds => simp at hx; simp [hx]
                have hok : Ok false (strtol16 (ds ++ [0]).tail).2 := by
                  have : Ok false ((123 :: w) ++ (strtol16 (ds ++ [0]).tail).2) := by
                    rw [List.cons_append, ← e1, ← hds]; exact ⟨ds, rfl, h0'', hcl⟩
                  exact this.skip (by simp [e2]) (by simp [e3])
                have hlen : (strtol16 (ds ++ [0]).tail).2.length ≤ ds.length := by
                  have := congrArg List.length e1
                  simp at this; omega
                split
                · rename_i e he
                  rw [he] at hok hlen e1
                  simp only [List.length_cons] at hlen
                  refine .inr ⟨hok.skip (w := [125]) (r := e) (by simp) (by simp), by simp only [List.length_cons, List.length_append, List.length_nil]; omega,
                    ⟨92 :: d :: 123 :: (w ++ [125]), ?_, fun h => (by cases h)⟩, fun h => (by cases h)⟩
                  rw [hds, e1]; simp
                · rename_i he
                  rw [he] at hok
                  obtain ⟨cs, e, _⟩ := hok
                  cases cs <;> simp at e
                · trivial
              · exact .inr ⟨⟨ds, rfl, h0'', hcl⟩, by simp, ⟨[92, d], rfl, fun h => (by cases h)⟩, fun h => (by cases h)⟩
          · simp only [if_true]
            split
            · rename_i he
              subst he
              rw [Closed] at hc
              exact (nextc_safe k false (ds ++ [0]) (by simp; omega) ⟨ds, rfl, h0'', hc⟩).mono fun y hy => hy.mono (w := [92, 69])
            · rename_i he
              refine .inr ⟨⟨d :: ds, rfl, h0', ?_⟩, by simp, ⟨[92], rfl, fun h => (by cases h)⟩, fun h => (by cases h)⟩
              rw [Closed] at hc
              · exact hc
              · intro h1 h2; exact he h2
        · rename_i hb
          rw [closed_cons hb] at hc
          exact .inr ⟨⟨d :: ds, rfl, h0', hc⟩, by simp, ⟨[c], rfl, fun _ => by simp⟩, fun h => ⟨hc0, h⟩⟩

theorem strip_split : ∀ {n s e : List Nat}, strip n s = some e → s = n ++ e
  | [], _, _, h => by rw [strip] at h; exact Option.some.inj h
  | _ :: _, [], _, h => by rw [strip] at h; cases h
  | n :: ns, c :: cs, e, h => by
    rw [strip] at h
    split at h
    · rename_i hc; subst hc; rw [strip_split h]; rfl
    · cases h

theorem lookup_split {s : List Nat} {k : Nat} {e : List Nat} : ∀ {t : List (List Nat × Nat)}, lookup s t = some (k, e) → ∃ n, (n, k) ∈ t ∧ s = n ++ e
  | [], h => by rw [lookup] at h; cases h
  | (n, k') :: t, h => by
    rw [lookup] at h
    split at h
    · rename_i e' he
      obtain ⟨rfl, rfl⟩ := Prod.mk.inj (Option.some.inj h)
      exact ⟨n, by simp, strip_split he⟩
    · obtain ⟨n', h1, h2⟩ := lookup_split h
      exact ⟨n', by simp [h1], h2⟩

theorem ascii_clean : ∀ p ∈ asciiNames, 92 ∉ p.1 ∧ 0 ∉ p.1 := by decide +kernel
theorem utf_clean : ∀ p ∈ utfNames, 92 ∉ p.1 ∧ 0 ∉ p.1 := by decide +kernel

theorem Ok.len {lit : Bool} {r : List Nat} (h : Ok lit r) : 1 ≤ r.length := by
  obtain ⟨cs, rfl, -⟩ := h; simp

/-- A part of the pattern is skipped. -/
def Skips (s r : List Nat) : Prop := ∃ w, s = w ++ r ∧ 92 ∉ w ∧ 0 ∉ w

theorem Skips.refl (s : List Nat) : Skips s s := ⟨[], rfl, by simp, by simp⟩

theorem Skips.len {s r : List Nat} (h : Skips s r) : r.length ≤ s.length := by
  obtain ⟨w, rfl, -⟩ := h; simp

theorem Skips.ok {lit : Bool} {s r : List Nat} (h : Skips s r) (ho : Ok lit s) : Ok lit r := by
  obtain ⟨w, rfl, h1, h2⟩ := h; exact ho.skip h1 h2

theorem lexAscii_skips (ic : Bool) (s : List Nat) : Skips (58 :: s) (lexAscii ic (58 :: s)).2 := by
  unfold lexAscii
  simp only [List.tail_cons]
  split
  · exact .refl _
  · rename_i k e he
    obtain ⟨n, h1, h2⟩ := lookup_split he
    obtain ⟨c1, c2⟩ := ascii_clean _ h1
    unfold caret at h2
    split at h2
    · simp only at h2
      exact ⟨58 :: 94 :: n, by rw [h2]; rfl, by simp at c1 ⊢; exact c1, by simp at c2 ⊢; exact c2⟩
    · simp only at h2
      exact ⟨58 :: n, by rw [h2]; rfl, by simp at c1 ⊢; exact c1, by simp at c2 ⊢; exact c2⟩

theorem quoted_skips (ic : Bool) (c : Nat) (s : List Nat) : Skips s (quoted ic c s).2 := by
  unfold quoted
  split
  · exact .refl _
  · split
    · unfold lexUtf
      split
      · exact .refl _
      · rename_i k e he
        obtain ⟨n, h1, h2⟩ := lookup_split he
        obtain ⟨c1, c2⟩ := utf_clean _ h1
        exact ⟨n, h2, c1, c2⟩
    · exact .refl _

/-- After reading a character, the lexer can go on, or it was the end. -/
def Ready (st : LS) (q : Bool) (c : Nat) : Prop := (q = false ∧ c = 0) ∨ Ok st.lit st.rest

theorem nextOk_ready {s : List Nat} {q : Bool} {c : Nat} {lit : Bool} {rest : List Nat} {st : LS} (h : NextOk s (q, c, lit, rest)) :
    Ready { st with lit := lit, rest := rest } q c := by
  rcases h with ⟨h1, h2, -⟩ | ⟨h1, -⟩
  · exact .inl ⟨h1, h2⟩
  · exact .inr h1

theorem nextOk_len {s : List Nat} {q : Bool} {c : Nat} {lit : Bool} {rest : List Nat} (hn : 0 < s.length) (h : NextOk s (q, c, lit, rest)) : rest.length < s.length := by
  rcases h with ⟨-, -, -, h4⟩ | ⟨-, h2, -⟩
  · simp only at h4; rw [h4]; exact hn
  · exact h2

theorem ready_ok {st : LS} {q : Bool} {c : Nat} (h : Ready st q c) (hc : c ≠ 0) : Ok st.lit st.rest := by
  rcases h with ⟨-, h⟩ | h
  · exact absurd h hc
  · exact h

/-- A class with less than 32 spans ends at its bracket. -/
theorem classLoop_safe : ∀ {f : Nat} {st : LS} {q : Bool} {c : Nat} {sp : List (Nat × Nat)}, Ready st q c → st.rest.length < f → sp.length + st.rest.length ≤ 31 →
    (classLoop f st (q, c) sp).Safe (fun y => Ok y.2.lit y.2.rest ∧ y.2.rest.length ≤ st.rest.length)
  | 0, _, _, _, _, _, h, _ => by omega
  | f + 1, st, q, c, sp, hr, hf, hs => by
    rw [classLoop, if_neg (by omega)]
    split
    · trivial
    · rename_i hc
      have hok := ready_ok hr hc
      split
      · exact ⟨hok, Nat.le_refl _⟩
      · split
        · rename_i he
          rw [he] at hok
          have := hok.len
          simp at this
        · rename_i x xs he
          split
          · rename_i hd
            refine (nextc_safe _ _ _ (Nat.le_refl _) hok).bind fun ⟨q1, c1, lit1, rest1⟩ h1 => ?_
            simp only
            split
            · trivial
            · rename_i hc1
              have hl1 := nextOk_len hok.len h1
              have hok1 := ready_ok (nextOk_ready (st := st) h1) hc1
              simp only at hok1
              cases sp with
              | nil => simp at hd
              | cons p sp =>
                refine (nextc_safe _ _ _ (Nat.le_refl _) hok1).bind fun ⟨q2, c2, lit2, rest2⟩ h2 => ?_
                have hl2 := nextOk_len hok1.len h2
                simp only [List.length_cons] at hs
                refine (classLoop_safe (nextOk_ready h2) (by simp only; omega) (by simp only [List.length_cons]; omega)).mono fun y hy => ⟨hy.1, ?_⟩
                have := hy.2
                simp only at this
                omega
          · have hsk : Skips st.rest (if q = true then quoted st.ic c st.rest else if c = 91 ∧ x = 58 then lexAscii st.ic st.rest else (c, st.rest)).2 := by
              split
              · exact quoted_skips _ _ _
              · split
                · rename_i hx
                  rw [he, hx.2]
                  exact lexAscii_skips _ _
                · exact .refl _
            have hok' := hsk.ok hok
            have hlen := hsk.len
            refine (nextc_safe _ _ _ (Nat.le_refl _) hok').bind fun ⟨q2, c2, lit2, rest2⟩ h2 => ?_
            have hl2 := nextOk_len hok'.len h2
            refine (classLoop_safe (nextOk_ready h2) (by simp only; omega) (by simp only [List.length_cons]; omega)).mono fun y hy => ⟨hy.1, ?_⟩
            have := hy.2
            simp only at this
            omega

theorem bldcclass_safe {st : LS} (hok : Ok st.lit st.rest) (hs : st.rest.length ≤ 32) :
    (bldcclass st).Safe (fun y => Ok y.2.lit y.2.rest ∧ y.2.rest.length ≤ st.rest.length ∧ atom y.1 = true) := by
  unfold bldcclass
  split
  · trivial
  · refine (nextc_safe _ _ _ (Nat.le_refl _) hok).bind fun ⟨q1, c1, lit1, rest1⟩ h1 => ?_
    have hl1 := nextOk_len hok.len h1
    simp only
    split
    · rename_i hc
      have hok1 := ready_ok (nextOk_ready (st := st) h1) (by omega)
      simp only at hok1
      refine (nextc_safe _ _ _ (Nat.le_refl _) hok1).bind fun ⟨q2, c2, lit2, rest2⟩ h2 => ?_
      have hl2 := nextOk_len hok1.len h2
      refine (classLoop_safe (f := st.rest.length + 1) (sp := [(10, 10)]) (nextOk_ready (st := { st with nclass := st.nclass + 1 }) h2) (by simp; omega) (by simp; omega)).bind fun ⟨sp, st'⟩ hy => ?_
      have := hy.2
      simp only at this
      exact ⟨hy.1, by simp only; omega, rfl⟩
    · refine (classLoop_safe (f := st.rest.length + 1) (sp := []) (nextOk_ready (st := { st with nclass := st.nclass + 1 }) h1) (by simp; omega) (by simp; omega)).bind fun ⟨sp, st'⟩ hy => ?_
      have := hy.2
      simp only at this
      exact ⟨hy.1, by simp only; omega, rfl⟩

theorem flags_safe : ∀ {r : List Nat} {en : Bool} {st : LS}, st.lit = false → Ok false r →
    (flags en st r).Safe (fun y => ∀ t, y.1 = some t → Ok y.2.lit y.2.rest ∧ y.2.rest.length ≤ r.length ∧ (∃ w, r = w ++ y.2.rest) ∧ ∀ o, t = .one o → atom o = true)
  | [], _, _, _, h => by have := h.len; simp at this
  | c :: r, en, st, hl, h => by
    have hskip : c ≠ 92 → c ≠ 0 → Ok false r := fun h1 h2 => h.skip (w := [c]) (by simpa using Ne.symm h1) (by simpa using Ne.symm h2)
    unfold flags
    split
    · rename_i heq; cases heq
    · intro t ht; cases ht
    · rename_i heq
      cases heq
      intro t ht
      cases ht
      refine ⟨by rw [hl]; exact hskip (by omega) (by omega), by simp, ⟨[41], rfl⟩, fun o ho => ?_⟩
      cases ho
      split <;> rfl
    · rename_i heq
      cases heq
      refine (flags_safe (st := st) hl (hskip (by omega) (by omega))).mono fun y hy t ht => ?_
      obtain ⟨h1, h2, ⟨w, h3⟩, h4⟩ := hy t ht
      exact ⟨h1, by simp; omega, ⟨45 :: w, by simp only [List.cons_append]; rw [← h3]⟩, h4⟩
    · rename_i heq
      cases heq
      refine (flags_safe (st := { st with dot := en }) hl (hskip (by omega) (by omega))).mono fun y hy t ht => ?_
      obtain ⟨h1, h2, ⟨w, h3⟩, h4⟩ := hy t ht
      exact ⟨h1, by simp; omega, ⟨115 :: w, by simp only [List.cons_append]; rw [← h3]⟩, h4⟩
    · rename_i heq
      cases heq
      refine (flags_safe (st := { st with ic := en }) hl (hskip (by omega) (by omega))).mono fun y hy t ht => ?_
      obtain ⟨h1, h2, ⟨w, h3⟩, h4⟩ := hy t ht
      exact ⟨h1, by simp; omega, ⟨105 :: w, by simp only [List.cons_append]; rw [← h3]⟩, h4⟩
    · trivial

/-- Classes are short, or there are none. -/
def Short (s : List Nat) : Prop := s.length ≤ 33 ∨ 91 ∉ s

theorem Short.tail {w s : List Nat} (h : Short (w ++ s)) : Short s := by
  rcases h with h | h
  · left; simp at h; omega
  · right; simp at h; exact h.2

def LexOk (st : LS) (y : Option (Tok Op) × LS) : Prop :=
  ∀ t, y.1 = some t → Ok y.2.lit y.2.rest ∧ y.2.rest.length < st.rest.length ∧ Short y.2.rest ∧ ∀ o, t = .one o → atom o = true

theorem runeTok_atom {ic : Bool} {c : Nat} {o : Op} (h : runeTok ic c = .one o) : atom o = true := by
  unfold runeTok at h
  cases h
  split <;> rfl

theorem lex_safe {st : LS} (hok : Ok st.lit st.rest) (hsh : Short st.rest) : (lex st).Safe (LexOk st) := by
  unfold lex
  refine (nextc_safe _ _ _ (Nat.le_refl _) hok).bind fun ⟨q, c, lit, rest⟩ h1 => ?_
  simp only
  rcases h1 with ⟨h1, h2, h3, h4⟩ | ⟨h1, h2, ⟨w, h3, h3'⟩, h4⟩
  · simp only at h1 h2 h3 h4
    subst h1 h2
    simp only [Bool.false_eq_true, if_false, if_true]
    intro t ht; cases ht
  · simp only at h1 h2 h3 h3' h4
    have hsr : Short rest := by rw [h3] at hsh; exact hsh.tail
    have base : ∀ {t : Tok Op}, (∀ o, t = .one o → atom o = true) → R.Safe (LexOk st) (.ok (some t, { st with lit := lit, rest := rest })) := by
      intro t ht t' e
      cases e
      exact ⟨h1, h2, hsr, ht⟩
    cases q
    · simp only [Bool.false_eq_true, if_false]
      obtain ⟨hc0, hl⟩ := h4 rfl
      subst hl
      rw [if_neg hc0]
      split; · exact base (by simp)
      split; · exact base (by simp)
      split; · exact base (by simp)
      split; · exact base (by simp)
      split; · exact base (by simp [atom])
      split; · exact base (by simp [atom])
      split
      · refine base fun o ho => ?_
        cases ho
        split <;> rfl
      split
      · rename_i hb
        rcases hsh with hsh | hsh
        · refine (bldcclass_safe (st := { st with lit := false, rest := rest }) h1 (by simp only; omega)).bind fun ⟨o, st'⟩ hy => ?_
          obtain ⟨y1, y2, y3⟩ := hy
          intro t ht
          cases ht
          simp only at y1 y2 y3
          refine ⟨y1, by simp only; omega, .inl (by simp only; omega), fun o ho => ?_⟩
          cases ho; exact y3
        · have := h3' rfl
          rw [h3, hb.symm] at hsh
          exact absurd (List.mem_append_left _ this) hsh
      split
      · split
        · rename_i he
          have := h1.len
          simp at this
        · rename_i r
          have hr : Ok false r := h1.skip (w := [63]) (by simp) (by simp)
          refine (flags_safe (st := { st with lit := false, rest := 63 :: r }) rfl hr).mono fun y hy t ht => ?_
          obtain ⟨q1, q2, ⟨u, q3⟩, q4⟩ := hy t ht
          simp only [List.length_cons] at h2
          refine ⟨q1, by omega, ?_, q4⟩
          rw [show (63 :: r) = (63 :: u) ++ y.2.rest by rw [List.cons_append, ← q3]] at hsr
          exact hsr.tail
        · exact base (by simp)
      split; · exact base (by simp)
      exact base fun o ho => runeTok_atom ho
    · simp only [if_true]
      split; · exact base fun o ho => runeTok_atom ho
      split; · exact base (by simp [atom])
      split; · exact base (by simp [atom])
      split; · exact base (by simp [atom])
      split; · exact base (by simp [atom])
      split; · exact base (by simp [atom])
      intro t ht
      cases ht
      have hq := quoted_skips st.ic c rest
      refine ⟨hq.ok h1, by have := hq.len; simp only; omega, ?_, fun o ho => runeTok_atom ho⟩
      obtain ⟨u, hu, -⟩ := hq
      rw [hu] at hsr
      exact hsr.tail

/-- The loop is defined, and has read some symbols. -/
theorem parseLoop_safe {cap : Nat} : ∀ {f : Nat} {st : LS} {s : PS} {B : Nat}, Ok st.lit st.rest → Short st.rest → st.rest.length ≤ f →
    Stacks B s.ators s.x → B + 2 * st.rest.length ≤ cap + 1 →
    (parseLoop cap f st s).Safe (fun s' => ∃ ts, tokens cap ts s = .ok s' ∧ Atoms ts ∧ ts.length < st.rest.length)
  | 0, st, _, _, hok, _, hf, _, _ => by have := hok.len; omega
  | f + 1, st, s, B, hok, hsh, hf, hst, hB => by
    rw [parseLoop]
    refine (lex_safe hok hsh).bind fun ⟨t, st'⟩ h1 => ?_
    cases t with
    | none => exact ⟨[], rfl, (by intro o ho; cases ho), hok.len⟩
    | some t =>
      obtain ⟨h1, h2, h3, h4⟩ := h1 t rfl
      simp only at h1 h2 h3 h4 ⊢
      have hl := h1.len
      have hts := token_safe (cap := cap) (by omega) hst t
      cases htk : token cap s t with
      | ub => rw [htk] at hts; cases hts
      | err => trivial
      | ok s1 =>
        rw [htk] at hts
        refine (parseLoop_safe h1 h3 (by omega) hts (by omega)).mono fun s' h5 => ?_
        obtain ⟨ts, q1, q2, q3⟩ := h5
        refine ⟨t :: ts, ?_, ?_, by simp; omega⟩
        · simp only [tokens, htk]; exact q1
        · intro o ho
          rcases List.mem_cons.1 ho with e | ho
          · exact h4 o e.symm
          · exact q2 o ho

theorem regcomp_not_ub {ic dot : Bool} {bytes : Nat} {pat : List Nat} (h0 : 0 ∉ pat) (hc : Closed false pat = true) (hs : pat.length ≤ 32 ∨ 91 ∉ pat) (hb : pat.length ≤ bytes) :
    regcomp ic dot bytes pat ≠ .ub := by
  have : (regcomp ic dot bytes pat).Safe (fun _ => True) := by
    unfold regcomp
    have hst0 : Stacks 0 ps0.ators ps0.x := ⟨fun n hn => (by cases hn), ⟨[], rfl⟩, by simp [ps0, weights, Ator.weight]⟩
    refine (parseLoop_safe (st := ⟨pat ++ [0], false, ic, dot, 0⟩) (B := 0) ⟨pat, rfl, h0, hc⟩ ?_ (by simp) hst0 (by simp; omega)).bind fun s hs => ?_
    · rcases hs with hs | hs
      · left; simp; omega
      · right; simp [hs]
    · obtain ⟨ts, q1, q2, q3⟩ := hs
      have := compile_not_ub (cap := 5 + 6 * bytes) (ic := ic) q2 (by simp at q3; omega)
      rw [compile_finish, q1] at this
      simp only [R.bind] at this
      cases hf : finishComp (5 + 6 * bytes) ic s with
      | ub => exact absurd hf this
      | err => trivial
      | ok => trivial
  intro e
  rw [e] at this
  cases this

end Verif.Regex
