import Verif.Utf8.Spec
import Verif.Base
import Mathlib.Tactic.Common
import Mathlib.Data.List.TakeWhile
namespace Verif.Utf8
open Spec

/-! ### the decoder automaton -/

/-- Next state. -/
def nx (st n : Nat) : Option Nat := do
  let type ← dtab[n]?
  dtab[256 + st + type]?

def isCont (n : Nat) : Prop := 0x80 ≤ n ∧ n < 0xC0
instance (n : Nat) : Decidable (isCont n) := inferInstanceAs (Decidable (_ ∧ _))

theorem nx_tab : ∀ n < 256,
    nx 0 n = some (if n < 0x80 then 0 else if n < 0xC2 then 12 else if n < 0xE0 then 24
      else if n = 0xE0 then 48 else if n = 0xED then 60 else if n < 0xF0 then 36
      else if n = 0xF0 then 72 else if n < 0xF4 then 84 else if n = 0xF4 then 96 else 12) ∧
    nx 24 n = some (if isCont n then 0 else 12) ∧
    nx 36 n = some (if isCont n then 24 else 12) ∧
    nx 48 n = some (if 0xA0 ≤ n ∧ n < 0xC0 then 24 else 12) ∧
    nx 60 n = some (if 0x80 ≤ n ∧ n < 0xA0 then 24 else 12) ∧
    nx 72 n = some (if 0x90 ≤ n ∧ n < 0xC0 then 36 else 12) ∧
    nx 84 n = some (if isCont n then 36 else 12) ∧
    nx 96 n = some (if 0x80 ≤ n ∧ n < 0x90 then 36 else 12) := by decide +kernel

theorem first_tab : ∀ n < 256, ∃ t ∈ dtab[n]?,
    (n < 0x80 → (0xff >>> t) &&& n = n) ∧ (0xC2 ≤ n → n < 0xE0 → (0xff >>> t) &&& n = n - 0xC0) ∧
    (0xE0 ≤ n → n < 0xF0 → (0xff >>> t) &&& n = n - 0xE0) ∧
    (0xF0 ≤ n → n < 0xF5 → (0xff >>> t) &&& n = n - 0xF0) ∧ (0xff >>> t) &&& n < 256 := by decide +kernel

theorem cont_val (cp n : Nat) (h : isCont n) : (n &&& 0x3f) ||| (cp <<< 6) = 64 * cp + (n - 0x80) := by
  have h1 : n &&& 0x3f = n - 0x80 := by
    rw [show (0x3f : Nat) = 2 ^ 6 - 1 by rfl, Nat.and_two_pow_sub_one_eq_mod]
    have := h.1; have := h.2; omega
  have h2 : n - 0x80 < 2 ^ 6 := by have := h.2; omega
  rw [h1, Nat.or_comm, Nat.shiftLeft_eq, Nat.mul_comm]
  exact (Nat.two_pow_add_eq_or_of_lt h2 cp).symm

theorem decode_nx (d : D) (b : Byte) : (decode d b).map (·.state) = nx d.state b.toNat := by
  simp only [decode, nx]
  cases dtab[b.toNat]? with
  | none => rfl
  | some t => simp only [Option.bind_eq_bind, Option.bind_some]; cases dtab[256 + d.state + t]? <;> rfl

theorem decode_cont {st cp : Nat} {b : Byte} {st' : Nat} (h0 : st ≠ 0) (h : nx st b.toNat = some st') :
    decode ⟨st, cp⟩ b = some ⟨st', ((b.toNat &&& 0x3f) ||| (cp <<< 6)) % 2 ^ 32⟩ := by
  simp only [nx, Option.bind_eq_bind] at h
  simp only [decode, Option.bind_eq_bind]
  cases ht : dtab[b.toNat]? with
  | none => simp [ht] at h
  | some t =>
    rw [ht] at h
    simp only [Option.bind_some] at h ⊢
    rw [h]; simp [h0]

theorem decode_first {cp : Nat} {b : Byte} {st' : Nat} (h : nx 0 b.toNat = some st') :
    ∃ v, decode ⟨0, cp⟩ b = some ⟨st', v⟩ ∧
    (b.toNat < 0x80 → v = b.toNat) ∧ (0xC2 ≤ b.toNat → b.toNat < 0xE0 → v = b.toNat - 0xC0) ∧
    (0xE0 ≤ b.toNat → b.toNat < 0xF0 → v = b.toNat - 0xE0) ∧
    (0xF0 ≤ b.toNat → b.toNat < 0xF5 → v = b.toNat - 0xF0) := by
  obtain ⟨t, ht, h1, h2, h3, h4, _⟩ := first_tab b.toNat b.isLt
  refine ⟨(0xff >>> t) &&& b.toNat, ?_, h1, h2, h3, h4⟩
  simp only [nx, Option.bind_eq_bind] at h
  simp only [decode, Option.bind_eq_bind]
  rw [Option.mem_def] at ht
  rw [ht] at h ⊢
  simp only [Option.bind_some] at h ⊢
  rw [h]; simp

/-- The decoder reads exactly `bs` before accepting with code point `c`. -/
def Chain : D → List Byte → Nat → Prop
  | _, [], _ => False
  | d, [b], c => decode d b = some ⟨0, c⟩
  | d, b :: b' :: bs, c => ∃ d', decode d b = some d' ∧ d'.state > 12 ∧ Chain d' (b' :: bs) c

/-- States that are reached from the start state. -/
def okState (st : Nat) : Prop := st ∈ [24, 36, 48, 60, 72, 84, 96]

theorem toNat_ofNat8 {n : Nat} (h : n < 256) : (BitVec.ofNat 8 n).toNat = n := by
  simp [Nat.mod_eq_of_lt h]

theorem byte_ext {b : Byte} {n : Nat} (h : b.toNat = n) : b = BitVec.ofNat 8 n := by
  rw [← h]; simp

/-- every step is defined and stays among the known states. -/
theorem decode_total {st cp : Nat} (h : st = 0 ∨ okState st) (b : Byte) :
    ∃ d', decode ⟨st, cp⟩ b = some d' ∧ (d'.state = 0 ∨ d'.state = 12 ∨ okState d'.state) ∧
      (d'.state ≠ 0 → d'.state ≠ 12 → d'.state > 12) := by
  have ht := nx_tab b.toNat b.isLt
  have : ∃ st', nx st b.toNat = some st' ∧ (st' = 0 ∨ st' = 12 ∨ okState st') := by
    rcases h with rfl | h
    · rw [ht.1]; refine ⟨_, rfl, ?_⟩; simp only [okState]; repeat' split
      all_goals simp
    · simp only [okState, List.mem_cons, List.not_mem_nil, or_false] at h
      rcases h with rfl | rfl | rfl | rfl | rfl | rfl | rfl
      · rw [ht.2.1]; refine ⟨_, rfl, ?_⟩; simp only [okState]; split <;> simp
      · rw [ht.2.2.1]; refine ⟨_, rfl, ?_⟩; simp only [okState]; split <;> simp
      · rw [ht.2.2.2.1]; refine ⟨_, rfl, ?_⟩; simp only [okState]; split <;> simp
      · rw [ht.2.2.2.2.1]; refine ⟨_, rfl, ?_⟩; simp only [okState]; split <;> simp
      · rw [ht.2.2.2.2.2.1]; refine ⟨_, rfl, ?_⟩; simp only [okState]; split <;> simp
      · rw [ht.2.2.2.2.2.2.1]; refine ⟨_, rfl, ?_⟩; simp only [okState]; split <;> simp
      · rw [ht.2.2.2.2.2.2.2]; refine ⟨_, rfl, ?_⟩; simp only [okState]; split <;> simp
  obtain ⟨st', e, h'⟩ := this
  have h2 := decode_nx ⟨st, cp⟩ b
  rw [e] at h2
  cases hd : decode ⟨st, cp⟩ b with
  | none => simp [hd] at h2
  | some d' =>
    rw [hd] at h2
    simp at h2
    refine ⟨d', rfl, by rw [h2]; exact h', fun h3 h4 => ?_⟩
    rw [h2] at h3 h4 ⊢
    rcases h' with h' | h' | h'
    · exact absurd h' h3
    · exact absurd h' h4
    · simp only [okState, List.mem_cons, List.not_mem_nil, or_false] at h'
      rcases h' with rfl | rfl | rfl | rfl | rfl | rfl | rfl <;> omega

/-- one more continuation byte. -/
theorem chain24 {cp c : Nat} (hcp : cp < 2 ^ 26) (bs : List Byte) :
    Chain ⟨24, cp⟩ bs c ↔ ∃ b, bs = [b] ∧ isCont b.toNat ∧ c = 64 * cp + (b.toNat - 0x80) := by
  constructor
  · intro h
    match bs, h with
    | [b], h =>
      have ht := (nx_tab b.toNat b.isLt).2.1
      by_cases hc : isCont b.toNat
      · rw [if_pos hc] at ht
        have e := decode_cont (cp := cp) (by decide) ht
        rw [Chain, e] at h
        simp only [Option.some.injEq, D.mk.injEq, true_and] at h
        refine ⟨b, rfl, hc, ?_⟩
        rw [← h, cont_val _ _ hc, Nat.mod_eq_of_lt (by have := hc.2; omega)]
      · rw [if_neg hc] at ht
        rw [Chain, decode_cont (cp := cp) (by decide) ht] at h
        simp at h
    | b :: b' :: bs, h =>
      obtain ⟨d', e, h1, _⟩ := h
      have ht := (nx_tab b.toNat b.isLt).2.1
      have e2 := decode_nx ⟨24, cp⟩ b
      rw [e, ht] at e2
      simp at e2
      split at e2 <;> omega
  · rintro ⟨b, rfl, hc, hceq⟩
    rw [hceq]
    have ht := (nx_tab b.toNat b.isLt).2.1
    rw [if_pos hc] at ht
    rw [Chain, decode_cont (cp := cp) (by decide) ht, cont_val _ _ hc, Nat.mod_eq_of_lt (by have := hc.2; omega)]

/-- a state that accepts only after a byte in `P` leads to `st'`. -/
theorem chain_step {st st' cp c : Nat} (P : Nat → Prop) [DecidablePred P] (h0 : st ≠ 0) (h1 : st' > 12)
    (hP : ∀ n, P n → isCont n) (hcp : 64 * cp + 64 ≤ 2 ^ 32)
    (ht : ∀ n < 256, nx st n = some (if P n then st' else 12)) (bs : List Byte) :
    Chain ⟨st, cp⟩ bs c ↔ ∃ b bs', bs = b :: bs' ∧ P b.toNat ∧ Chain ⟨st', 64 * cp + (b.toNat - 0x80)⟩ bs' c := by
  constructor
  · intro h
    match bs, h with
    | [b], h =>
      have ht := ht b.toNat b.isLt
      have e2 := decode_nx ⟨st, cp⟩ b
      rw [Chain] at h
      rw [h, ht] at e2
      simp at e2
      split at e2 <;> omega
    | b :: b' :: bs, h =>
      obtain ⟨d', e, h2, h3⟩ := h
      have ht := ht b.toNat b.isLt
      by_cases hc : P b.toNat
      · rw [if_pos hc] at ht
        have e' := decode_cont (cp := cp) h0 ht
        rw [e] at e'
        simp only [Option.some.injEq] at e'
        refine ⟨b, b' :: bs, rfl, hc, ?_⟩
        rw [e', cont_val _ _ (hP _ hc), Nat.mod_eq_of_lt (by have := (hP _ hc).2; omega)] at h3
        exact h3
      · rw [if_neg hc] at ht
        have e' := decode_cont (cp := cp) h0 ht
        rw [e] at e'
        simp only [Option.some.injEq] at e'
        rw [e'] at h2; simp at h2
  · rintro ⟨b, bs', rfl, hc, h⟩
    match bs', h with
    | b' :: bs, h =>
      have ht := ht b.toNat b.isLt
      rw [if_pos hc] at ht
      refine ⟨_, decode_cont (cp := cp) h0 ht, h1, ?_⟩
      rw [cont_val _ _ (hP _ hc), Nat.mod_eq_of_lt (by have := (hP _ hc).2; omega)]
      exact h

theorem chain36 {cp c : Nat} (hcp : cp < 2 ^ 20) (bs : List Byte) :
    Chain ⟨36, cp⟩ bs c ↔ ∃ b b2, bs = [b, b2] ∧ isCont b.toNat ∧ isCont b2.toNat ∧
      c = 64 * (64 * cp + (b.toNat - 0x80)) + (b2.toNat - 0x80) := by
  rw [chain_step (st' := 24) isCont (by decide) (by decide) (fun _ h => h) (by omega) (fun n hn => (nx_tab n hn).2.2.1)]
  constructor
  · rintro ⟨b, bs', rfl, hc, h⟩
    obtain ⟨b2, rfl, h2, hceq⟩ := (chain24 (by have := hc.2; omega) _).1 h
    rw [hceq]
    exact ⟨b, b2, rfl, hc, h2, rfl⟩
  · rintro ⟨b, b2, rfl, hc, h2, hceq⟩
    rw [hceq]
    exact ⟨b, [b2], rfl, hc, (chain24 (by have := hc.2; omega) _).2 ⟨b2, rfl, h2, rfl⟩⟩

/-- first byte ranges and what they require of the rest. -/
theorem chain0 {x c : Nat} (bs : List Byte) :
    Chain ⟨0, x⟩ bs c ↔ ∃ b bs', bs = b :: bs' ∧
      ((b.toNat < 0x80 ∧ bs' = [] ∧ c = b.toNat) ∨
       (0xC2 ≤ b.toNat ∧ b.toNat < 0xE0 ∧ Chain ⟨24, b.toNat - 0xC0⟩ bs' c) ∨
       (b.toNat = 0xE0 ∧ Chain ⟨48, 0⟩ bs' c) ∨
       (b.toNat = 0xED ∧ Chain ⟨60, 0xD⟩ bs' c) ∨
       (0xE0 < b.toNat ∧ b.toNat < 0xF0 ∧ b.toNat ≠ 0xED ∧ Chain ⟨36, b.toNat - 0xE0⟩ bs' c) ∨
       (b.toNat = 0xF0 ∧ Chain ⟨72, 0⟩ bs' c) ∨
       (0xF0 < b.toNat ∧ b.toNat < 0xF4 ∧ Chain ⟨84, b.toNat - 0xF0⟩ bs' c) ∨
       (b.toNat = 0xF4 ∧ Chain ⟨96, 4⟩ bs' c)) := by
  constructor
  · intro h
    match bs, h with
    | [b], h =>
      refine ⟨b, [], rfl, ?_⟩
      have ht := (nx_tab b.toNat b.isLt).1
      obtain ⟨v, e, v1, _⟩ := decode_first (cp := x) ht
      rw [Chain, e] at h
      simp only [Option.some.injEq, D.mk.injEq] at h
      obtain ⟨h1, rfl⟩ := h
      by_cases hlt : b.toNat < 0x80
      · exact Or.inl ⟨hlt, rfl, v1 hlt⟩
      · rw [if_neg hlt] at h1
        repeat' split at h1
        all_goals omega
    | b :: b' :: bs, h =>
      refine ⟨b, b' :: bs, rfl, ?_⟩
      obtain ⟨d', e, h2, h3⟩ := h
      have ht := (nx_tab b.toNat b.isLt).1
      obtain ⟨v, e', v1, v2, v3, v4⟩ := decode_first (cp := x) ht
      rw [e] at e'
      simp only [Option.some.injEq] at e'
      subst e'
      simp only at h2 h3
      by_cases c1 : b.toNat < 0x80
      · rw [if_pos c1] at h2; omega
      rw [if_neg c1] at h2 h3
      by_cases c2 : b.toNat < 0xC2
      · rw [if_pos c2] at h2; omega
      rw [if_neg c2] at h2 h3
      by_cases c3 : b.toNat < 0xE0
      · rw [if_pos c3, v2 (by omega) c3] at h3
        exact Or.inr (Or.inl ⟨by omega, c3, h3⟩)
      rw [if_neg c3] at h2 h3
      by_cases c4 : b.toNat = 0xE0
      · rw [if_pos c4, v3 (by omega) (by omega), c4] at h3
        exact Or.inr (Or.inr (Or.inl ⟨c4, h3⟩))
      rw [if_neg c4] at h2 h3
      by_cases c5 : b.toNat = 0xED
      · rw [if_pos c5, v3 (by omega) (by omega), c5] at h3
        exact Or.inr (Or.inr (Or.inr (Or.inl ⟨c5, h3⟩)))
      rw [if_neg c5] at h2 h3
      by_cases c6 : b.toNat < 0xF0
      · rw [if_pos c6, v3 (by omega) (by omega)] at h3
        exact Or.inr (Or.inr (Or.inr (Or.inr (Or.inl ⟨by omega, c6, c5, h3⟩))))
      rw [if_neg c6] at h2 h3
      by_cases c7 : b.toNat = 0xF0
      · rw [if_pos c7, v4 (by omega) (by omega), c7] at h3
        exact Or.inr (Or.inr (Or.inr (Or.inr (Or.inr (Or.inl ⟨c7, h3⟩)))))
      rw [if_neg c7] at h2 h3
      by_cases c8 : b.toNat < 0xF4
      · rw [if_pos c8, v4 (by omega) (by omega)] at h3
        exact Or.inr (Or.inr (Or.inr (Or.inr (Or.inr (Or.inr (Or.inl ⟨by omega, c8, h3⟩))))))
      rw [if_neg c8] at h2 h3
      by_cases c9 : b.toNat = 0xF4
      · rw [if_pos c9, v4 (by omega) (by omega), c9] at h3
        exact Or.inr (Or.inr (Or.inr (Or.inr (Or.inr (Or.inr (Or.inr ⟨c9, h3⟩))))))
      rw [if_neg c9] at h2; omega
  · rintro ⟨b, bs', rfl, h⟩
    have ht := (nx_tab b.toNat b.isLt).1
    obtain ⟨v, e, v1, v2, v3, v4⟩ := decode_first (cp := x) ht
    have lift : ∀ st', st' > 12 → ∀ w, decode ⟨0, x⟩ b = some ⟨st', w⟩ → Chain ⟨st', w⟩ bs' c →
        Chain ⟨0, x⟩ (b :: bs') c := by
      intro st' hst w he hch
      match bs', hch with
      | b' :: bs, hch => exact ⟨_, he, hst, hch⟩
    rcases h with ⟨h1, rfl, rfl⟩ | ⟨h1, h2, h3⟩ | ⟨h1, h3⟩ | ⟨h1, h3⟩ | ⟨h1, h2, h4, h3⟩ | ⟨h1, h3⟩ | ⟨h1, h2, h3⟩ | ⟨h1, h3⟩
    · rw [if_pos h1, v1 h1] at e; exact e
    · rw [if_neg (by omega), if_neg (by omega), if_pos h2, v2 h1 h2] at e
      exact lift 24 (by decide) _ e h3
    · rw [if_neg (by omega), if_neg (by omega), if_neg (by omega), if_pos h1, v3 (by omega) (by omega), h1] at e
      exact lift 48 (by decide) _ e h3
    · rw [if_neg (by omega), if_neg (by omega), if_neg (by omega), if_neg (by omega), if_pos h1,
        v3 (by omega) (by omega), h1] at e
      exact lift 60 (by decide) _ e h3
    · rw [if_neg (by omega), if_neg (by omega), if_neg (by omega), if_neg (by omega), if_neg h4, if_pos h2,
        v3 (by omega) (by omega)] at e
      exact lift 36 (by decide) _ e h3
    · rw [if_neg (by omega), if_neg (by omega), if_neg (by omega), if_neg (by omega), if_neg (by omega),
        if_neg (by omega), if_pos h1, v4 (by omega) (by omega), h1] at e
      exact lift 72 (by decide) _ e h3
    · rw [if_neg (by omega), if_neg (by omega), if_neg (by omega), if_neg (by omega), if_neg (by omega),
        if_neg (by omega), if_neg (by omega), if_pos h2, v4 (by omega) (by omega)] at e
      exact lift 84 (by decide) _ e h3
    · rw [if_neg (by omega), if_neg (by omega), if_neg (by omega), if_neg (by omega), if_neg (by omega),
        if_neg (by omega), if_neg (by omega), if_neg (by omega), if_pos h1, v4 (by omega) (by omega), h1] at e
      exact lift 96 (by decide) _ e h3

theorem chain48 {c : Nat} (bs : List Byte) :
    Chain ⟨48, 0⟩ bs c ↔ ∃ b b2, bs = [b, b2] ∧ (0xA0 ≤ b.toNat ∧ b.toNat < 0xC0) ∧ isCont b2.toNat ∧
      c = 64 * (b.toNat - 0x80) + (b2.toNat - 0x80) := by
  rw [chain_step (st' := 24) (fun n => 0xA0 ≤ n ∧ n < 0xC0) (by decide) (by decide)
    (fun n h => ⟨by omega, h.2⟩) (by omega) (fun n hn => (nx_tab n hn).2.2.2.1)]
  constructor
  · rintro ⟨b, bs', rfl, hc, h⟩
    obtain ⟨b2, rfl, h2, hceq⟩ := (chain24 (by have := hc.2; omega) _).1 h
    rw [hceq]
    exact ⟨b, b2, rfl, hc, h2, by omega⟩
  · rintro ⟨b, b2, rfl, hc, h2, hceq⟩
    rw [hceq]
    exact ⟨b, [b2], rfl, hc, (chain24 (by have := hc.2; omega) _).2 ⟨b2, rfl, h2, by omega⟩⟩

theorem chain60 {c : Nat} (bs : List Byte) :
    Chain ⟨60, 0xD⟩ bs c ↔ ∃ b b2, bs = [b, b2] ∧ (0x80 ≤ b.toNat ∧ b.toNat < 0xA0) ∧ isCont b2.toNat ∧
      c = 64 * (64 * 0xD + (b.toNat - 0x80)) + (b2.toNat - 0x80) := by
  rw [chain_step (st' := 24) (fun n => 0x80 ≤ n ∧ n < 0xA0) (by decide) (by decide)
    (fun n h => ⟨h.1, by omega⟩) (by omega) (fun n hn => (nx_tab n hn).2.2.2.2.1)]
  constructor
  · rintro ⟨b, bs', rfl, hc, h⟩
    obtain ⟨b2, rfl, h2, hceq⟩ := (chain24 (by have := hc.2; omega) _).1 h
    rw [hceq]
    exact ⟨b, b2, rfl, hc, h2, by omega⟩
  · rintro ⟨b, b2, rfl, hc, h2, hceq⟩
    rw [hceq]
    exact ⟨b, [b2], rfl, hc, (chain24 (by have := hc.2; omega) _).2 ⟨b2, rfl, h2, by omega⟩⟩

theorem chain4 {st cp c : Nat} (P : Nat → Prop) [DecidablePred P] (h0 : st ≠ 0)
    (hP : ∀ n, P n → isCont n) (hcp : cp ≤ 4)
    (ht : ∀ n < 256, nx st n = some (if P n then 36 else 12)) (bs : List Byte) :
    Chain ⟨st, cp⟩ bs c ↔ ∃ b b2 b3, bs = [b, b2, b3] ∧ P b.toNat ∧ isCont b2.toNat ∧ isCont b3.toNat ∧
      c = 64 * (64 * (64 * cp + (b.toNat - 0x80)) + (b2.toNat - 0x80)) + (b3.toNat - 0x80) := by
  rw [chain_step (st' := 36) P h0 (by decide) hP (by omega) ht]
  constructor
  · rintro ⟨b, bs', rfl, hc, h⟩
    obtain ⟨b2, b3, rfl, h2, h3, hceq⟩ := (chain36 (by have := (hP _ hc).2; omega) _).1 h
    rw [hceq]
    exact ⟨b, b2, b3, rfl, hc, h2, h3, rfl⟩
  · rintro ⟨b, b2, b3, rfl, hc, h2, h3, hceq⟩
    rw [hceq]
    exact ⟨b, [b2, b3], rfl, hc, (chain36 (by have := (hP _ hc).2; omega) _).2 ⟨b2, b3, rfl, h2, h3, rfl⟩⟩

theorem mk_byte {b : Byte} {n : Nat} (h : n = b.toNat) : BitVec.ofNat 8 n = b := by rw [h]; simp

theorem cont_ofNat (k : Nat) (h : k < 64) : (BitVec.ofNat 8 (0x80 + k)).toNat = 0x80 + k ∧
    isCont (BitVec.ofNat 8 (0x80 + k)).toNat := by
  have := toNat_ofNat8 (n := 0x80 + k) (by omega)
  rw [this]; exact ⟨rfl, by constructor <;> omega⟩

/-- The automaton accepts exactly the well-formed sequence of the code point it reports. -/
theorem chain_iff {x c : Nat} (bs : List Byte) : Chain ⟨0, x⟩ bs c ↔ Scalar c ∧ bs = enc c := by
  rw [chain0]
  constructor
  · rintro ⟨b, bs', rfl, h⟩
    rcases h with ⟨h1, rfl, rfl⟩ | ⟨h1, h2, h3⟩ | ⟨h1, h3⟩ | ⟨h1, h3⟩ | ⟨h1, h2, h4, h3⟩ | ⟨h1, h3⟩ | ⟨h1, h2, h3⟩ | ⟨h1, h3⟩
    · exact ⟨Or.inl (by omega), by rw [enc, if_pos h1, mk_byte rfl]⟩
    · obtain ⟨b2, rfl, ⟨u1, u2⟩, hceq⟩ := (chain24 (by omega) _).1 h3
      rw [hceq]
      refine ⟨Or.inl (by omega), ?_⟩
      rw [enc, if_neg (by omega), if_pos (by omega), mk_byte (b := b) (by omega), mk_byte (b := b2) (by omega)]
    · obtain ⟨b2, b3, rfl, ⟨u1, u2⟩, ⟨w1, w2⟩, hceq⟩ := (chain48 _).1 h3
      rw [hceq]
      refine ⟨Or.inl (by omega), ?_⟩
      rw [enc, if_neg (by omega), if_neg (by omega), if_pos (by omega), mk_byte (b := b) (by omega),
        mk_byte (b := b2) (by omega), mk_byte (b := b3) (by omega)]
    · obtain ⟨b2, b3, rfl, ⟨u1, u2⟩, ⟨w1, w2⟩, hceq⟩ := (chain60 _).1 h3
      rw [hceq]
      refine ⟨Or.inl (by omega), ?_⟩
      rw [enc, if_neg (by omega), if_neg (by omega), if_pos (by omega), mk_byte (b := b) (by omega),
        mk_byte (b := b2) (by omega), mk_byte (b := b3) (by omega)]
    · obtain ⟨b2, b3, rfl, ⟨u1, u2⟩, ⟨w1, w2⟩, hceq⟩ := (chain36 (by omega) _).1 h3
      rw [hceq]
      refine ⟨by simp only [Scalar]; omega, ?_⟩
      rw [enc, if_neg (by omega), if_neg (by omega), if_pos (by omega), mk_byte (b := b) (by omega),
        mk_byte (b := b2) (by omega), mk_byte (b := b3) (by omega)]
    · obtain ⟨b2, b3, b4, rfl, ⟨u1, u2⟩, ⟨w1, w2⟩, ⟨y1, y2⟩, hceq⟩ :=
        (chain4 (fun n => 0x90 ≤ n ∧ n < 0xC0) (by decide) (fun n h => ⟨by omega, h.2⟩) (by decide)
          (fun n hn => (nx_tab n hn).2.2.2.2.2.1) _).1 h3
      rw [hceq]
      refine ⟨Or.inr (by omega), ?_⟩
      rw [enc, if_neg (by omega), if_neg (by omega), if_neg (by omega), mk_byte (b := b) (by omega),
        mk_byte (b := b2) (by omega), mk_byte (b := b3) (by omega), mk_byte (b := b4) (by omega)]
    · obtain ⟨b2, b3, b4, rfl, ⟨u1, u2⟩, ⟨w1, w2⟩, ⟨y1, y2⟩, hceq⟩ :=
        (chain4 isCont (by decide) (fun n h => h) (by omega)
          (fun n hn => (nx_tab n hn).2.2.2.2.2.2.1) _).1 h3
      rw [hceq]
      refine ⟨Or.inr (by omega), ?_⟩
      rw [enc, if_neg (by omega), if_neg (by omega), if_neg (by omega), mk_byte (b := b) (by omega),
        mk_byte (b := b2) (by omega), mk_byte (b := b3) (by omega), mk_byte (b := b4) (by omega)]
    · obtain ⟨b2, b3, b4, rfl, ⟨u1, u2⟩, ⟨w1, w2⟩, ⟨y1, y2⟩, hceq⟩ :=
        (chain4 (fun n => 0x80 ≤ n ∧ n < 0x90) (by decide) (fun n h => ⟨h.1, by omega⟩) (by decide)
          (fun n hn => (nx_tab n hn).2.2.2.2.2.2.2) _).1 h3
      rw [hceq]
      refine ⟨Or.inr (by omega), ?_⟩
      rw [enc, if_neg (by omega), if_neg (by omega), if_neg (by omega), mk_byte (b := b) (by omega),
        mk_byte (b := b2) (by omega), mk_byte (b := b3) (by omega), mk_byte (b := b4) (by omega)]
  · rintro ⟨hs, rfl⟩
    simp only [Scalar] at hs
    unfold enc
    split
    · rename_i h
      exact ⟨_, _, rfl, Or.inl ⟨by rw [toNat_ofNat8 (by omega)]; exact h, rfl, (toNat_ofNat8 (by omega)).symm⟩⟩
    split
    · rename_i h1 h2
      obtain ⟨e1, e2⟩ := cont_ofNat (c % 64) (Nat.mod_lt _ (by omega))
      have e0 := toNat_ofNat8 (n := 0xC0 + c / 64) (by omega)
      refine ⟨_, _, rfl, Or.inr (Or.inl ⟨by omega, by omega, ?_⟩)⟩
      exact (chain24 (by omega) _).2 ⟨_, rfl, e2, by omega⟩
    split
    · rename_i h1 h2 h3
      obtain ⟨e1, e2⟩ := cont_ofNat (c / 64 % 64) (Nat.mod_lt _ (by omega))
      obtain ⟨e3, e4⟩ := cont_ofNat (c % 64) (Nat.mod_lt _ (by omega))
      have e0 := toNat_ofNat8 (n := 0xE0 + c / 4096) (by omega)
      refine ⟨_, _, rfl, ?_⟩
      by_cases c1 : c / 4096 = 0
      · refine Or.inr (Or.inr (Or.inl ⟨by omega, ?_⟩))
        exact (chain48 _).2 ⟨_, _, rfl, by omega, e4, by omega⟩
      by_cases c2 : c / 4096 = 0xD
      · refine Or.inr (Or.inr (Or.inr (Or.inl ⟨by omega, ?_⟩)))
        exact (chain60 _).2 ⟨_, _, rfl, by omega, e4, by omega⟩
      · refine Or.inr (Or.inr (Or.inr (Or.inr (Or.inl ⟨by omega, by omega, by omega, ?_⟩))))
        exact (chain36 (by omega) _).2 ⟨_, _, rfl, e2, e4, by omega⟩
    · rename_i h1 h2 h3
      obtain ⟨e1, e2⟩ := cont_ofNat (c / 4096 % 64) (Nat.mod_lt _ (by omega))
      obtain ⟨e3, e4⟩ := cont_ofNat (c / 64 % 64) (Nat.mod_lt _ (by omega))
      obtain ⟨e5, e6⟩ := cont_ofNat (c % 64) (Nat.mod_lt _ (by omega))
      have e0 := toNat_ofNat8 (n := 0xF0 + c / 262144) (by omega)
      refine ⟨_, _, rfl, ?_⟩
      by_cases c1 : c / 262144 = 0
      · refine Or.inr (Or.inr (Or.inr (Or.inr (Or.inr (Or.inl ⟨by omega, ?_⟩)))))
        exact (chain4 (fun n => 0x90 ≤ n ∧ n < 0xC0) (by decide) (fun n h => ⟨by omega, h.2⟩) (by decide)
          (fun n hn => (nx_tab n hn).2.2.2.2.2.1) _).2 ⟨_, _, _, rfl, by omega, e4, e6, by omega⟩
      by_cases c2 : c / 262144 = 4
      · refine Or.inr (Or.inr (Or.inr (Or.inr (Or.inr (Or.inr (Or.inr ⟨by omega, ?_⟩))))))
        exact (chain4 (fun n => 0x80 ≤ n ∧ n < 0x90) (by decide) (fun n h => ⟨h.1, by omega⟩) (by decide)
          (fun n hn => (nx_tab n hn).2.2.2.2.2.2.2) _).2 ⟨_, _, _, rfl, by omega, e4, e6, by omega⟩
      · refine Or.inr (Or.inr (Or.inr (Or.inr (Or.inr (Or.inr (Or.inl ⟨by omega, by omega, ?_⟩))))))
        exact (chain4 isCont (by decide) (fun n h => h) (by omega)
          (fun n hn => (nx_tab n hn).2.2.2.2.2.2.1) _).2 ⟨_, _, _, rfl, e2, e4, e6, by omega⟩


/-! ### encoding -/

theorem or_tab : (∀ k < 32, (k &&& 0x1F) ||| 0xC0 = 0xC0 + k) ∧ (∀ k < 16, (k &&& 0x0F) ||| 0xE0 = 0xE0 + k) ∧
    (∀ k < 8, (k &&& 0x07) ||| 0xF0 = 0xF0 + k) ∧ (∀ k < 64, k ||| 0x80 = 0x80 + k) := by decide +kernel

theorem low6 (k : Nat) : (k &&& 0x3F) ||| 0x80 = 0x80 + k % 64 := by
  rw [show (0x3f : Nat) = 2 ^ 6 - 1 by rfl, Nat.and_two_pow_sub_one_eq_mod]
  exact or_tab.2.2.2 _ (Nat.mod_lt _ (by decide))

theorem encode_eq {c : Nat} (h : Scalar c) : encode c = enc c := by
  simp only [Scalar] at h
  unfold encode enc
  simp only [Nat.shiftRight_eq_div_pow]
  split
  · rfl
  split
  · rw [or_tab.1 _ (by omega), low6]
  split
  · rw [if_pos (by omega), or_tab.2.1 _ (by omega), low6, low6]
  · rw [if_pos (by omega), or_tab.2.2.1 _ (by omega), low6, low6, low6]

theorem encode_none {c : Nat} (h : ¬ Scalar c) : encode c = [] := by
  simp only [Scalar] at h
  unfold encode
  rw [if_neg (by omega), if_neg (by omega)]
  split
  · rw [if_neg (by omega)]
  · rw [if_neg (by omega)]

/-! ### the loops over the automaton -/

theorem peek_chain {c : Nat} (m : List Byte) : ∀ (bs : List Byte) (d : D), Chain d bs c →
    peekLoop d (bs ++ m) = some ⟨0, c⟩
  | [], d, h => h.elim
  | [b], d, h => by
    rw [Chain] at h
    simp [peekLoop, h]
  | b :: b' :: bs, d, h => by
    obtain ⟨d', e, h1, h2⟩ := h
    have := peek_chain m (b' :: bs) d' h2
    rw [List.cons_append, peekLoop]
    simp only [e, Option.bind_eq_bind, Option.bind_some, if_pos h1, this]

theorem dcp_chain {c avail : Nat} (m : List Byte) : ∀ (bs : List Byte) (d : D) (k : Nat), Chain d bs c →
    k + bs.length ≤ avail → dcpLoop avail d (bs ++ m) k = some (⟨0, c⟩, k + bs.length)
  | [], d, k, h, _ => h.elim
  | [b], d, k, h, _ => by
    rw [Chain] at h
    simp [dcpLoop, h]
  | b :: b' :: bs, d, k, h, hk => by
    obtain ⟨d', e, h1, h2⟩ := h
    simp only [List.length_cons] at hk
    have := dcp_chain (avail := avail) m (b' :: bs) d' (k + 1) h2 (by simp only [List.length_cons]; omega)
    rw [List.cons_append, dcpLoop]
    simp only [e, Option.bind_eq_bind, Option.bind_some]
    rw [if_neg (by omega), if_neg (by omega), if_neg (by omega), this]
    simp only [List.length_cons]
    congr 2
    omega

theorem recover_bounds {n : Nat} (h : 1 ≤ n) : 1 ≤ recover n ∧ recover n ≤ n := by
  unfold recover; split <;> omega

theorem dcp_total {avail : Nat} : ∀ (m : List Byte) (d : D) (k : Nat), d.state = 0 ∨ okState d.state →
    k < avail → avail ≤ k + m.length →
    ∃ r n, dcpLoop avail d m k = some (r, n) ∧ 1 ≤ n ∧ n ≤ avail ∧
      ((∃ bs, Chain d bs r.codep ∧ n = k + bs.length ∧ bs <+: m) ∨ r.codep = 0xFFFD) := by
  intro m
  induction m with
  | nil => intro d k _ h1 h2; simp at h2; omega
  | cons b m ih =>
    intro d k hd h1 h2
    obtain ⟨st, cp⟩ := d
    obtain ⟨d', e, h3, h4⟩ := decode_total (cp := cp) hd b
    rw [dcpLoop]
    simp only [e, Option.bind_eq_bind, Option.bind_some]
    have hr := recover_bounds (n := k + 1) (by omega)
    by_cases c0 : d'.state = 0
    · rw [if_pos c0]
      refine ⟨d', k + 1, rfl, by omega, by omega, Or.inl ⟨[b], ?_, rfl, by simp⟩⟩
      rw [Chain, e, ← c0]
    rw [if_neg c0]
    by_cases c1 : d'.state = 12
    · rw [if_pos c1]
      exact ⟨_, _, rfl, hr.1, by omega, Or.inr rfl⟩
    rw [if_neg c1]
    by_cases c2 : k + 1 = avail
    · rw [if_pos c2]
      exact ⟨_, _, rfl, hr.1, by omega, Or.inr rfl⟩
    rw [if_neg c2]
    simp only [List.length_cons] at h2
    obtain ⟨r, n, e2, n1, n2, h5⟩ := ih d' (k + 1) (by rcases h3 with h | h | h; exacts [Or.inl h, absurd h c1, Or.inr h])
      (by omega) (by omega)
    refine ⟨r, n, e2, n1, n2, ?_⟩
    rcases h5 with ⟨bs, hb, hn, hp⟩ | h5
    · refine Or.inl ⟨b :: bs, ?_, by simp; omega, List.cons_prefix_cons.2 ⟨rfl, hp⟩⟩
      match bs, hb with
      | b' :: bs, hb => exact ⟨d', e, h4 c0 c1, hb⟩
    · exact Or.inr h5

theorem enc_ne_nil (c : Nat) : enc c ≠ [] := by
  unfold enc; repeat' split
  all_goals simp

theorem decodeCp_enc {c avail : Nat} (h : Scalar c) (m : List Byte) (ha : (enc c).length ≤ avail) :
    decodeCp (enc c ++ m) avail = some (c, (enc c).length) := by
  have := dcp_chain (avail := avail) m (enc c) ⟨0, 0⟩ 0 ((chain_iff _).2 ⟨h, rfl⟩) (by omega)
  rw [decodeCp, this]
  simp

/-! ### validation -/

theorem enc_zero : enc 0 = [0#8] := by decide

theorem nx_zero (st : Nat) (h : st = 0 ∨ okState st) : nx st 0 = some (if st = 0 then 0 else 12) := by
  rcases h with rfl | h
  · decide
  · simp only [okState, List.mem_cons, List.not_mem_nil, or_false] at h
    rcases h with rfl | rfl | rfl | rfl | rfl | rfl | rfl <;> decide

theorem validN_spec : ∀ (n : Nat) (m : List Byte) (d : D), d.state = 0 ∨ okState d.state → n ≤ m.length →
    ∃ r, validNLoop n d m = some r ∧
      (r = true ↔ (d.state = 0 ∧ (m.take n).takeWhile (· != 0#8) = []) ∨
        ∃ bs c cs, Chain d bs c ∧ Text cs ∧ (m.take n).takeWhile (· != 0#8) = bs ++ text cs) := by
  intro n
  induction n with
  | zero =>
    intro m d _ _
    refine ⟨d.state == 0, by simp [validNLoop], ?_⟩
    simp only [beq_iff_eq, List.take_zero, List.takeWhile_nil, and_true]
    constructor
    · exact Or.inl
    · rintro (h | ⟨bs, c, cs, h1, _, h3⟩)
      · exact h
      · obtain ⟨rfl, _⟩ := List.append_eq_nil_iff.1 h3.symm
        exact h1.elim
  | succ n ih =>
    intro m d hd hm
    match m, hm with
    | b :: m, hm =>
    obtain ⟨st, cp⟩ := d
    simp only at hd
    obtain ⟨d', e, h3, h4⟩ := decode_total (cp := cp) hd b
    rw [validNLoop]
    simp only [e, Option.bind_eq_bind, Option.bind_some, List.take_succ_cons]
    by_cases hb : b = 0#8
    · subst hb
      rw [if_pos (Or.inr rfl)]
      have hz := decode_nx ⟨st, cp⟩ 0#8
      rw [e] at hz
      have hz2 : some d'.state = some (if st = 0 then 0 else 12) := hz.trans (nx_zero st hd)
      simp only [Option.some.injEq] at hz2
      have ht : List.takeWhile (fun x : Byte => x != 0#8) (0#8 :: List.take n m) = [] := by simp
      rw [ht]
      refine ⟨_, rfl, ?_⟩
      simp only [beq_iff_eq, and_true, hz2]
      constructor
      · intro h; left; by_contra hc; rw [if_neg hc] at h; omega
      · rintro (h | ⟨bs, c, cs, h1, _, h3⟩)
        · rw [if_pos h]
        · obtain ⟨rfl, _⟩ := List.append_eq_nil_iff.1 h3.symm
          exact h1.elim
    have ht : List.takeWhile (fun x : Byte => x != 0#8) (b :: List.take n m) =
        b :: List.takeWhile (fun x => x != 0#8) (List.take n m) := by simp [hb]
    rw [ht]
    by_cases c1 : d'.state = 12
    · rw [if_pos (Or.inl c1)]
      refine ⟨_, rfl, ?_⟩
      simp only [c1]
      constructor
      · intro h; exact absurd h (by decide)
      · rintro (⟨_, h⟩ | ⟨bs, c, cs, h1, _, h3⟩)
        · simp at h
        · exfalso
          match bs, h1 with
          | [b1], h1 =>
            simp only [List.cons_append, List.cons.injEq] at h3
            rw [Chain, ← h3.1, e] at h1
            simp only [Option.some.injEq] at h1
            rw [h1] at c1; simp at c1
          | b1 :: b2 :: bs, h1 =>
            obtain ⟨d2, e2, h2, _⟩ := h1
            simp only [List.cons_append, List.cons.injEq] at h3
            rw [← h3.1, e] at e2
            simp only [Option.some.injEq] at e2
            rw [← e2] at h2; omega
    rw [if_neg (by rintro (h | h); exacts [c1 h, hb h])]
    obtain ⟨r, er, hr⟩ := ih m d' (by rcases h3 with h | h | h; exacts [Or.inl h, absurd h c1, Or.inr h])
      (by simp only [List.length_cons] at hm; omega)
    refine ⟨r, er, hr.trans ?_⟩
    constructor
    · rintro (⟨h1, h2⟩ | ⟨bs, c, cs, h1, h2, h5⟩)
      · refine Or.inr ⟨[b], d'.codep, [], ?_, by simp [Text], by rw [h2]; rfl⟩
        rw [Chain, e, ← h1]
      · by_cases c0 : d'.state = 0
        · obtain ⟨st', cp'⟩ := d'
          simp only at c0; subst c0
          obtain ⟨hs, rfl⟩ := (chain_iff _).1 h1
          refine Or.inr ⟨[b], cp', c :: cs, by rw [Chain]; exact e, ?_, by rw [h5]; rfl⟩
          intro x hx
          rcases List.mem_cons.1 hx with rfl | hx
          · refine ⟨hs, ?_⟩
            rintro rfl
            have : (0#8 : Byte) ∈ List.takeWhile (fun x => x != 0#8) (List.take n m) := by
              rw [h5, enc_zero]; simp
            have := List.mem_takeWhile_imp this
            simp at this
          · exact h2 x hx
        · refine Or.inr ⟨b :: bs, c, cs, ?_, h2, by rw [h5]; rfl⟩
          match bs, h1 with
          | b' :: bs, h1 => exact ⟨d', e, h4 c0 c1, h1⟩
    · rintro (⟨_, h⟩ | ⟨bs, c, cs, h1, h2, h5⟩)
      · simp at h
      · match bs, h1 with
        | [b1], h1 =>
          simp only [List.cons_append, List.nil_append, List.cons.injEq] at h5
          rw [Chain, ← h5.1, e] at h1
          simp only [Option.some.injEq] at h1
          subst h1
          match cs, h2, h5 with
          | [], _, h5 => exact Or.inl ⟨rfl, h5.2⟩
          | c2 :: cs, h2, h5 =>
            exact Or.inr ⟨enc c2, c2, cs, (chain_iff _).2 ⟨(h2 c2 (by simp)).1, rfl⟩,
              fun x hx => h2 x (by simp [hx]), h5.2⟩
        | b1 :: b2 :: bs, h1 =>
          obtain ⟨d2, e2, h6, h7⟩ := h1
          simp only [List.cons_append, List.cons.injEq] at h5
          rw [← h5.1, e] at e2
          simp only [Option.some.injEq] at e2
          subst e2
          exact Or.inr ⟨b2 :: bs, c, cs, h7, h2, h5.2⟩

theorem validLoop_eq : ∀ (m : List Byte) (d : D), 0#8 ∈ m → validLoop d m = validNLoop m.length d m := by
  intro m
  induction m with
  | nil => intro d h; simp at h
  | cons b m ih =>
    intro d h
    rw [validLoop, List.length_cons, validNLoop]
    cases decode d b with
    | none => rfl
    | some d' =>
      simp only [Option.bind_eq_bind, Option.bind_some]
      by_cases c : d'.state = 12 ∨ b = 0#8
      · rw [if_pos c, if_neg (by rintro ⟨h1, h2⟩; rcases c with c | c; exacts [h1 c, h2 c])]
      · rw [if_neg c]
        simp only [not_or] at c
        rw [if_pos c]
        refine ih d' ?_
        rcases List.mem_cons.1 h with h | h
        · exact absurd h.symm c.2
        · exact h

/-! ### counting and indexing -/

theorem lead_tab : ∀ n < 256, lead (BitVec.ofNat 8 n) = decide (¬ isCont n) := by decide +kernel

theorem lead_eq (b : Byte) : lead b = decide (¬ isCont b.toNat) := by
  have := lead_tab b.toNat b.isLt
  simpa using this

theorem ofNat8_ne_zero {n : Nat} (h : n < 256) (h0 : n ≠ 0) : BitVec.ofNat 8 n ≠ 0#8 := by
  intro e
  have := congrArg BitVec.toNat e
  rw [toNat_ofNat8 h] at this
  exact h0 (by simpa using this)

/-- Shape of an encoded scalar: a lead byte followed by continuation bytes. -/
theorem enc_shape {c : Nat} (h : Scalar c) (h0 : c ≠ 0) : ∃ b tl, enc c = b :: tl ∧ b ≠ 0#8 ∧ lead b = true ∧
    (∀ x ∈ tl, x ≠ 0#8 ∧ lead x = false) ∧ tl.length ≤ 3 ∧ chrSize (enc c) = some (enc c).length := by
  simp only [Scalar] at h
  have cont : ∀ k, k < 64 → BitVec.ofNat 8 (0x80 + k) ≠ 0#8 ∧ lead (BitVec.ofNat 8 (0x80 + k)) = false := by
    intro k hk
    refine ⟨ofNat8_ne_zero (by omega) (by omega), ?_⟩
    rw [lead_eq]
    simpa using (cont_ofNat k hk).2
  have ld : ∀ n, n < 256 → (n < 0x80 ∨ 0xC0 ≤ n) → lead (BitVec.ofNat 8 n) = true := by
    intro n hn h
    rw [lead_eq, toNat_ofNat8 hn]
    apply decide_eq_true; simp only [isCont]; omega
  have m1 := Nat.mod_lt c (show 64 > 0 by omega)
  have m2 := Nat.mod_lt (c / 64) (show 64 > 0 by omega)
  have m3 := Nat.mod_lt (c / 4096) (show 64 > 0 by omega)
  unfold enc
  split
  · refine ⟨_, _, rfl, ofNat8_ne_zero (by omega) h0, ld _ (by omega) (by omega), by simp, by simp, ?_⟩
    simp only [chrSize, List.head?_cons, Option.bind_eq_bind, Option.bind_some, toNat_ofNat8 (show c < 256 by omega)]
    rw [if_pos (by omega)]; rfl
  split
  · refine ⟨_, _, rfl, ofNat8_ne_zero (by omega) (by omega), ld _ (by omega) (by omega), ?_, by simp, ?_⟩
    · intro x hx; simp only [List.mem_cons, List.not_mem_nil, or_false] at hx; subst hx; exact cont _ m1
    · simp only [chrSize, List.head?_cons, Option.bind_eq_bind, Option.bind_some,
        toNat_ofNat8 (show 0xC0 + c / 64 < 256 by omega)]
      rw [if_neg (by omega), if_pos (by omega)]; rfl
  split
  · refine ⟨_, _, rfl, ofNat8_ne_zero (by omega) (by omega), ld _ (by omega) (by omega), ?_, by simp, ?_⟩
    · intro x hx; simp only [List.mem_cons, List.not_mem_nil, or_false] at hx
      rcases hx with rfl | rfl
      exacts [cont _ m2, cont _ m1]
    · simp only [chrSize, List.head?_cons, Option.bind_eq_bind, Option.bind_some,
        toNat_ofNat8 (show 0xE0 + c / 4096 < 256 by omega)]
      rw [if_neg (by omega), if_neg (by omega), if_pos (by omega)]; rfl
  · refine ⟨_, _, rfl, ofNat8_ne_zero (by omega) (by omega), ld _ (by omega) (by omega), ?_, by simp, ?_⟩
    · intro x hx; simp only [List.mem_cons, List.not_mem_nil, or_false] at hx
      rcases hx with rfl | rfl | rfl
      exacts [cont _ m3, cont _ m2, cont _ m1]
    · simp only [chrSize, List.head?_cons, Option.bind_eq_bind, Option.bind_some,
        toNat_ofNat8 (show 0xF0 + c / 262144 < 256 by omega)]
      rw [if_neg (by omega), if_neg (by omega), if_neg (by omega)]; rfl

/-- What follows a text: a byte that is not a continuation byte. -/
def Follow (m : List Byte) : Prop := ∃ b m', m = b :: m' ∧ lead b = true

theorem follow_text {cs : List Nat} (h : Text cs) {m : List Byte} (hm : Follow m) : Follow (text cs ++ m) := by
  cases cs with
  | nil => simpa [text] using hm
  | cons c cs =>
    obtain ⟨b, tl, e, _, hl, _⟩ := enc_shape (h c (by simp)).1 (h c (by simp)).2
    exact ⟨b, tl ++ (text cs ++ m), by simp [text, e], hl⟩

theorem count_chunk {R : List Byte} (hR : Follow R) :
    ∀ (tl : List Byte) (x : Byte), x ≠ 0#8 → (∀ y ∈ tl, y ≠ 0#8 ∧ lead y = false) →
      count (x :: tl ++ R) = (count R).map (1 + ·) := by
  intro tl
  induction tl with
  | nil =>
    intro x hx _
    obtain ⟨b, R', rfl, hl⟩ := hR
    rw [List.cons_append, List.nil_append, count, if_neg hx]
    simp only [List.head?_cons, Option.bind_eq_bind, Option.bind_some, hl, if_true]
    cases count (b :: R') <;> rfl
  | cons y tl ih =>
    intro x hx h
    have hy := h y (by simp)
    rw [List.cons_append, List.cons_append, count, if_neg hx]
    have := ih y hy.1 (fun z hz => h z (by simp [hz]))
    rw [List.cons_append] at this
    rw [this]
    simp only [List.head?_cons, Option.bind_eq_bind, Option.bind_some, hy.2]
    cases count R <;> simp

theorem countN_chunk {R : List Byte} (hR : Follow R) (n : Nat) :
    ∀ (tl : List Byte) (x : Byte), x ≠ 0#8 → (∀ y ∈ tl, y ≠ 0#8 ∧ lead y = false) →
      countN (tl.length + 1 + n) (x :: tl ++ R) = (countN n R).map (1 + ·) := by
  intro tl
  induction tl with
  | nil =>
    intro x hx _
    obtain ⟨b, R', rfl, hl⟩ := hR
    rw [List.cons_append, List.nil_append, List.length_nil, Nat.zero_add, Nat.add_comm, countN, if_neg hx]
    simp only [List.head?_cons, Option.bind_eq_bind, Option.bind_some, hl, if_true]
    cases countN n (b :: R') <;> rfl
  | cons y tl ih =>
    intro x hx h
    have hy := h y (by simp)
    rw [List.cons_append, List.cons_append, List.length_cons,
      show tl.length + 1 + 1 + n = (tl.length + 1 + n) + 1 by omega, countN, if_neg hx]
    have := ih y hy.1 (fun z hz => h z (by simp [hz]))
    rw [List.cons_append] at this
    rw [this]
    simp only [List.head?_cons, Option.bind_eq_bind, Option.bind_some, hy.2]
    cases countN n R <;> simp

theorem at_chunk {R : List Byte} (hR : Follow R) (i : Nat) :
    ∀ (tl : List Byte) (x : Byte), x ≠ 0#8 → (∀ y ∈ tl, y ≠ 0#8 ∧ lead y = false) →
      at' (i + 1) (x :: tl ++ R) = (at' i R).map (· + (tl.length + 1)) := by
  intro tl
  induction tl with
  | nil =>
    intro x hx _
    obtain ⟨b, R', rfl, hl⟩ := hR
    rw [List.cons_append, List.nil_append, at', if_neg hx]
    simp only [List.head?_cons, Option.bind_eq_bind, Option.bind_some, hl, if_true]
    cases at' i (b :: R') <;> rfl
  | cons y tl ih =>
    intro x hx h
    have hy := h y (by simp)
    rw [List.cons_append, List.cons_append, at', if_neg hx]
    have := ih y hy.1 (fun z hz => h z (by simp [hz]))
    rw [List.cons_append] at this
    simp only [List.head?_cons, Option.bind_eq_bind, Option.bind_some, hy.2, Bool.false_eq_true, if_false, this]
    cases at' i R <;> simp; omega

theorem text_cons (c : Nat) (cs : List Nat) : text (c :: cs) = enc c ++ text cs := rfl

theorem count_text (junk : List Byte) : ∀ cs, Text cs → count (text cs ++ 0#8 :: junk) = some cs.length := by
  intro cs
  induction cs with
  | nil => intro _; simp [text, count]
  | cons c cs ih =>
    intro h
    obtain ⟨b, tl, e, h1, _, h3, _⟩ := enc_shape (h c (by simp)).1 (h c (by simp)).2
    have hR : Follow (text cs ++ 0#8 :: junk) :=
      follow_text (fun x hx => h x (by simp [hx])) ⟨_, _, rfl, by decide⟩
    rw [text_cons, List.append_assoc, e, count_chunk hR _ _ h1 h3, ih (fun x hx => h x (by simp [hx]))]
    simp; omega

theorem countN_text {m : List Byte} (hm : Follow m) :
    ∀ cs, Text cs → countN (text cs).length (text cs ++ m) = some cs.length := by
  intro cs
  induction cs with
  | nil =>
    intro _
    obtain ⟨b, m', rfl, _⟩ := hm
    simp [text, countN]
  | cons c cs ih =>
    intro h
    obtain ⟨b, tl, e, h1, _, h3, _⟩ := enc_shape (h c (by simp)).1 (h c (by simp)).2
    have hR : Follow (text cs ++ m) := follow_text (fun x hx => h x (by simp [hx])) hm
    rw [text_cons, List.length_append, List.append_assoc, e, List.length_cons, countN_chunk hR _ _ _ h1 h3,
      ih (fun x hx => h x (by simp [hx]))]
    simp; omega

theorem at_text (junk : List Byte) : ∀ cs, Text cs → ∀ i,
    at' i (text cs ++ 0#8 :: junk) = some (text (cs.take i)).length := by
  intro cs
  induction cs with
  | nil => intro _ i; cases i <;> simp [text, at']
  | cons c cs ih =>
    intro h i
    obtain ⟨b, tl, e, h1, _, h3, _⟩ := enc_shape (h c (by simp)).1 (h c (by simp)).2
    cases i with
    | zero => rw [text_cons, List.append_assoc, e, List.cons_append, at']; rfl
    | succ i =>
      have hR : Follow (text cs ++ 0#8 :: junk) :=
        follow_text (fun x hx => h x (by simp [hx])) ⟨_, _, rfl, by decide⟩
      rw [text_cons, List.append_assoc, e, at_chunk hR _ _ _ h1 h3, ih (fun x hx => h x (by simp [hx]))]
      rw [List.take_succ_cons, text_cons, List.length_append, e]
      simp; omega

theorem countN_end : ∀ (n : Nat) (m : List Byte), n ≥ m.length → 0#8 ∉ m → countN n m = none := by
  intro n m
  induction m generalizing n with
  | nil => intro _ _; cases n <;> rfl
  | cons b m ih =>
    intro hn h0
    match n, hn with
    | n + 1, hn =>
      rw [countN, if_neg (by intro e; exact h0 (by simp [e]))]
      simp only [List.length_cons] at hn
      rw [ih n (by omega) (fun h => h0 (by simp [h]))]
      cases m.head? <;> rfl

end Verif.Utf8
