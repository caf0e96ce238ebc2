import Verif.Hash.Model
import Verif.Csview.Lemmas
import Mathlib.Tactic.Common
namespace Verif.Hash
open Verif.Utf8 Verif.Csview

/-- The bits of a partially overwritten word. -/
theorem blend_bit : ∀ (s : List Byte) (block : BitVec 64) (j : Nat), j < 64 →
    (blend block s).getLsbD j =
      if j / 8 < s.length then (s.getD (j / 8) 0#8).getLsbD (j % 8) else block.getLsbD j
  | [], block, j, _ => by simp [blend]
  | b :: bs, block, j, hj => by
    rw [blend, BitVec.getLsbD_or, BitVec.getLsbD_shiftLeft, BitVec.getLsbD_setWidth]
    by_cases h8 : j < 8
    · have h0 : j / 8 = 0 := by omega
      have h1 : j % 8 = j := by omega
      simp [h8, h0, h1, hj]
    · have h0 : j / 8 = (j - 8) / 8 + 1 := by omega
      have h1 : (j - 8) % 8 = j % 8 := by omega
      rw [blend_bit bs (block >>> 8) (j - 8) (by omega), h0, h1]
      have hb : b.getLsbD j = false := BitVec.getLsbD_of_ge b j (by omega)
      simp only [h8, hj, hb, decide_true, decide_false, Bool.not_false, Bool.true_and, Bool.and_false, Bool.or_false,
        List.length_cons, Nat.add_lt_add_iff_right, List.getD_cons_succ, BitVec.getLsbD_ushiftRight,
        show 8 + (j - 8) = j by omega]

theorem getD_byte_ext {a b : Byte} (h : ∀ k, k < 8 → a.getLsbD k = b.getLsbD k) : a = b :=
  BitVec.eq_of_getLsbD_eq h

/-- Words filled from equally many bytes are equal only if the bytes are. -/
theorem blend_inj {s t : List Byte} {b b' : BitVec 64} (hl : s.length = t.length) (h8 : s.length ≤ 8)
    (h : blend b s = blend b' t) : s = t := by
  apply List.ext_getElem hl
  intro i hi hi'
  apply getD_byte_ext
  intro k hk
  have e : (blend _ s).getLsbD (8 * i + k) = (blend _ t).getLsbD (8 * i + k) := congrArg (fun w => w.getLsbD (8 * i + k)) h
  rw [blend_bit _ _ _ (by omega), blend_bit _ _ _ (by omega), show (8 * i + k) / 8 = i by omega,
    show (8 * i + k) % 8 = k by omega, if_pos hi, if_pos hi'] at e
  simpa [List.getD_eq_getElem?_getD, List.getElem?_eq_getElem hi, List.getElem?_eq_getElem hi'] using e

/-- Zero-padded words are equal only if the padded strings are. -/
theorem blend_zero_inj {s t : List Byte} (hs : s.length ≤ 8) (ht : t.length ≤ 8)
    (h : blend 0#64 s = blend 0#64 t) (i : Nat) (hi : i < 8) : s.getD i 0#8 = t.getD i 0#8 := by
  apply getD_byte_ext
  intro k hk
  have e : (blend _ s).getLsbD (8 * i + k) = (blend _ t).getLsbD (8 * i + k) := congrArg (fun w => w.getLsbD (8 * i + k)) h
  rw [blend_bit _ _ _ (by omega), blend_bit _ _ _ (by omega), show (8 * i + k) / 8 = i by omega,
    show (8 * i + k) % 8 = k by omega] at e
  have aux : ∀ u : List Byte, (if i < u.length then (u.getD i 0#8).getLsbD k else (0#64).getLsbD (8 * i + k)) =
      (u.getD i 0#8).getLsbD k := by
    intro u
    split
    · rfl
    · next hn => rw [List.getD_eq_getElem?_getD, List.getElem?_eq_none (by omega)]; simp
  rwa [aux, aux] at e

/-- Overwriting all eight bytes forgets the word. -/
theorem blend_full {s : List Byte} (h : s.length = 8) (b b' : BitVec 64) : blend b s = blend b' s := by
  apply BitVec.eq_of_getLsbD_eq
  intro j hj
  rw [blend_bit _ _ _ hj, blend_bit _ _ _ hj, if_pos (by omega), if_pos (by omega)]

theorem mul_inj {c d x y : BitVec 64} (hc : c * d = 1#64) (h : x * c = y * c) : x = y := by
  have := congrArg (· * d) h
  simp only [BitVec.mul_assoc, hc, BitVec.mul_one] at this
  exact this

theorem inv8 : (0xc6a4a7935bd1e99d#64) * 0xc0b181df56bee4b5#64 = 1#64 := by decide
theorem inv4 : (0xa2ffeb2f01000193#64) * 0xdce8f586359c449b#64 = 1#64 := by decide
theorem invA : (0x89bb179901000193#64) * 0x99355dac359c449b#64 = 1#64 := by decide
theorem invB : (0xb0340f4501000193#64) * 0x61d6d0e0359c449b#64 = 1#64 := by decide

theorem xor_cancel {a b c : BitVec 64} (h : a ^^^ b = a ^^^ c) : b = c := by
  have := congrArg (a ^^^ ·) h
  simpa [← BitVec.xor_assoc] using this

theorem xor_cancel' {a b c : BitVec 64} (h : a ^^^ c = b ^^^ c) : a = b := by
  rw [BitVec.xor_comm a, BitVec.xor_comm b] at h
  exact xor_cancel h

/-- `h ^ (h >> 3)` loses nothing. -/
theorem shift_inj {x y : BitVec 64} (h : x ^^^ (x >>> 3) = y ^^^ (y >>> 3)) : x = y := by
  have aux : ∀ a b c d : BitVec 64, a ^^^ b = c ^^^ d → a ^^^ c = b ^^^ d := by
    intro a b c d hh
    apply BitVec.eq_of_getLsbD_eq
    intro i hi
    have := congrArg (fun w => w.getLsbD i) hh
    simp only [BitVec.getLsbD_xor] at this ⊢
    revert this
    cases a.getLsbD i <;> cases b.getLsbD i <;> cases c.getLsbD i <;> cases d.getLsbD i <;> simp
  have e : (x ^^^ y) = (x ^^^ y) >>> 3 := by
    rw [BitVec.ushiftRight_xor_distrib]
    exact aux _ _ _ _ h
  have e2 := congrArg BitVec.toNat e
  rw [BitVec.toNat_ushiftRight, Nat.shiftRight_eq_div_pow] at e2
  have e3 : (x ^^^ y).toNat = 0 := by omega
  have e4 : x ^^^ y = 0#64 := BitVec.eq_of_toNat_eq (by simpa using e3)
  exact (xor_cancel (a := x) (by rw [BitVec.xor_self, e4])).symm

/-- The last step of `c_basehash_n`. -/
theorem fin_inj {h h' b b' : BitVec 64}
    (e : ((h ^^^ b) * 0xb0340f4501000193#64) ^^^ (((h ^^^ b) * 0xb0340f4501000193#64) >>> 3) =
      ((h' ^^^ b') * 0xb0340f4501000193#64) ^^^ (((h' ^^^ b') * 0xb0340f4501000193#64) >>> 3)) :
    h ^^^ b = h' ^^^ b' :=
  mul_inj invB (shift_inj e)

/-- The loop, from different hash values over the same bytes, ends with different hash values. The
word read before must be the same, or be overwritten. -/
theorem hashLoop_inj : ∀ (f : Nat) (s : List Byte) (b b' h h' r : BitVec 64),
    (b = b' ∨ (s.length % 8 = 0 ∧ s ≠ [])) →
    hashLoop f b h s s.length = some r → hashLoop f b' h' s s.length = some r → h = h'
  | 0, s, b, b', h, h', r, _, e, _ => by simp [hashLoop] at e
  | f + 1, s, b, b', h, h', r, hb, e, e' => by
    rw [hashLoop] at e e'
    by_cases h8 : s.length > 8
    · rw [if_pos h8, if_pos (by omega)] at e e'
      have hl : s.length - 8 = (s.drop 8).length := by simp
      have hbl : blend b (s.take 8) = blend b' (s.take 8) := blend_full (by simp; omega) _ _
      rw [hl] at e e'
      rw [hbl] at e
      have := hashLoop_inj f (s.drop 8) _ _ _ _ r (Or.inl rfl) e e'
      exact xor_cancel' (mul_inj invA this)
    · rw [if_neg h8, if_pos (Nat.le_refl _)] at e e'
      have hbl : blend b (s.take s.length) = blend b' (s.take s.length) := by
        rcases hb with hb | ⟨hb, hn⟩
        · rw [hb]
        · apply blend_full
          have : s.length ≠ 0 := fun h0 => hn (List.length_eq_zero_iff.mp h0)
          simp; omega
      have := fin_inj (Option.some.inj (e.trans e'.symm))
      rw [hbl] at this
      exact xor_cancel' this

/-- The loop tells apart keys that differ in one aligned word. -/
theorem hashLoop_word : ∀ (f : Nat) (p x y s : List Byte) (b h r : BitVec 64),
    p.length % 8 = 0 → x.length = 8 → y.length = 8 → s.length % 8 = 0 →
    hashLoop f b h (p ++ x ++ s) (p ++ x ++ s).length = some r →
    hashLoop f b h (p ++ y ++ s) (p ++ y ++ s).length = some r → x = y
  | 0, p, x, y, s, b, h, r, _, _, _, _, e, _ => by simp [hashLoop] at e
  | f + 1, p, x, y, s, b, h, r, hp, hx, hy, hs, e, e' => by
    rw [hashLoop] at e e'
    by_cases hp0 : p = []
    · subst hp0
      simp only [List.nil_append, List.length_append, hx, hy] at e e'
      by_cases hs0 : s = []
      · subst hs0
        simp only [List.length_nil, Nat.add_zero, gt_iff_lt, Nat.lt_irrefl, if_false, Nat.le_refl, if_true, List.append_nil,
          List.take_of_length_le (Nat.le_of_eq hx), List.take_of_length_le (Nat.le_of_eq hy)] at e e'
        exact blend_inj (by omega) (by omega) (xor_cancel (fin_inj (Option.some.inj (e.trans e'.symm))))
      · have hn : s.length ≠ 0 := fun h0 => hs0 (List.length_eq_zero_iff.mp h0)
        rw [if_pos (by omega), if_pos (by omega), Nat.add_sub_cancel_left] at e e'
        rw [← hx, List.take_left, List.drop_left] at e
        rw [← hy, List.take_left, List.drop_left] at e'
        have := hashLoop_inj f s _ _ _ _ r (Or.inr ⟨hs, hs0⟩) e e'
        exact blend_inj (by omega) (by omega) (xor_cancel (mul_inj invA this))
    · have hn : p.length ≠ 0 := fun h0 => hp0 (List.length_eq_zero_iff.mp h0)
      have l1 : (p ++ x ++ s).length = p.length + 8 + s.length := by simp [hx]; omega
      have l2 : (p ++ y ++ s).length = p.length + 8 + s.length := by simp [hy]; omega
      have t : ∀ z : List Byte, (p ++ z ++ s).take 8 = p.take 8 := by
        intro z; rw [List.append_assoc, List.take_append_of_le_length (by omega)]
      have d : ∀ z : List Byte, (p ++ z ++ s).drop 8 = p.drop 8 ++ z ++ s := by
        intro z; rw [List.append_assoc, List.drop_append_of_le_length (by omega), List.append_assoc]
      have k1 : (p ++ x ++ s).length - 8 = (p.drop 8 ++ x ++ s).length := by
        rw [l1]; simp [hx]; omega
      have k2 : (p ++ y ++ s).length - 8 = (p.drop 8 ++ y ++ s).length := by
        rw [l2]; simp [hy]; omega
      rw [if_pos (by omega), if_pos (by omega), t, d, k1] at e
      rw [if_pos (by omega), if_pos (by omega), t, d, k2] at e'
      exact hashLoop_word f _ x y s _ _ r (by simp; omega) hx hy hs e e'

theorem hashN_local (s : List Byte) : ∃ h, ∀ j, hashN (s ++ j) s.length = some h := by
  unfold hashN
  by_cases h8 : s.length = 8
  · refine ⟨blend 0#64 s * 0xc6a4a7935bd1e99d#64, fun j => ?_⟩
    rw [if_pos h8, load, if_pos (by simp; omega), ← h8, List.take_left]; rfl
  · by_cases h4 : s.length = 4
    · refine ⟨blend 0#64 s * 0xa2ffeb2f01000193#64, fun j => ?_⟩
      rw [if_neg h8, if_pos h4, load, if_pos (by simp; omega), ← h4, List.take_left]; rfl
    · obtain ⟨h, hh⟩ := hashLoop_local (s.length + 1) s 0#64 0x811c9dc5#64 (by omega)
      exact ⟨h, fun j => by rw [if_neg h8, if_neg h4]; exact hh j⟩

theorem basehash_short {s : List Byte} (h : s.length ≤ 8) :
    basehash s s.length = some
      (((0x811c9dc5#64 ^^^ blend 0#64 s) * 0xb0340f4501000193#64) ^^^
        (((0x811c9dc5#64 ^^^ blend 0#64 s) * 0xb0340f4501000193#64) >>> 3)) := by
  rw [basehash, hashLoop, if_neg (by omega), if_pos (Nat.le_refl _), List.take_length]

theorem mixLoop_append (h : BitVec 64) (xs : List (BitVec 64)) (x : BitVec 64) :
    mixLoop h (xs ++ [x]) = mixLoop h xs + (mixLoop h xs ^^^ x) := by
  induction xs generalizing h with
  | nil => rfl
  | cons y ys ih => simp only [List.cons_append, mixLoop, ih]

end Verif.Hash
