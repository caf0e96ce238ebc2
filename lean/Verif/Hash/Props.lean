import Verif.Hash.Lemmas
/-
Properties of default hashing and of combining hashes (C144, C145).
-/
namespace Verif.Hash
open Verif.Utf8 Verif.Csview

/-! ### C144: the default hash -/

/-- C144. The default hash of an object reads the bytes of the object only and is defined whatever its
size. -/
theorem hash_defined (s : List Byte) : ∃ h, ∀ j, hashN (s ++ j) s.length = some h :=
  hashN_local s

example : ∃ h, ∀ j, hashN ([1, 2, 3, 4, 5, 6, 7, 8, 9, 10, 11, 12] ++ j) 12 = some h :=
  hash_defined [1, 2, 3, 4, 5, 6, 7, 8, 9, 10, 11, 12]

/-- C144. Two objects of the same type of up to eight bytes (every integer, pointer and small struct)
have the same default hash only if they consist of the same bytes: there are no collisions. -/
theorem hash_injective {s t : List Byte} (hl : s.length = t.length) (h8 : s.length ≤ 8)
    (h : hashN s s.length = hashN t t.length) : s = t := by
  rw [← hl] at h
  unfold hashN load at h
  have ts : s.take s.length = s := List.take_length
  have tt : t.take s.length = t := by rw [hl, List.take_length]
  by_cases e8 : s.length = 8
  · rw [if_pos e8, if_pos e8, if_pos (by omega), if_pos (by omega), ← e8, ts, tt] at h
    exact blend_inj hl h8 (mul_inj inv8 (Option.some.inj h))
  · by_cases e4 : s.length = 4
    · rw [if_neg e8, if_neg e8, if_pos e4, if_pos e4, if_pos (by omega), if_pos (by omega), ← e4, ts, tt] at h
      exact blend_inj hl h8 (mul_inj inv4 (Option.some.inj h))
    · rw [if_neg e8, if_neg e8, if_neg e4, if_neg e4] at h
      have h' : basehash s s.length = basehash t t.length := by rw [← hl]; exact h
      rw [basehash_short h8, basehash_short (by omega)] at h'
      exact blend_inj hl h8 (xor_cancel (fin_inj (Option.some.inj h')))

example : hashN [1, 0, 0, 0] 4 ≠ hashN [0, 0, 0, 1] 4 := fun h =>
  absurd (hash_injective (s := [1, 0, 0, 0]) (t := [0, 0, 0, 1]) rfl (by decide) h) (by decide)

/-- C144. C strings of up to eight characters, of whatever lengths, have different hashes if they
differ. -/
theorem hash_str_injective {s t : List Byte} (hs : s.length ≤ 8) (ht : t.length ≤ 8) (zs : 0#8 ∉ s) (zt : 0#8 ∉ t)
    (j j' : List Byte) (h : hashStr (s ++ 0#8 :: j) = hashStr (t ++ 0#8 :: j')) : s = t := by
  have key : ∀ (u : List Byte) (k : List Byte), u.length ≤ 8 → 0#8 ∉ u → hashStr (u ++ 0#8 :: k) =
      some (((0x811c9dc5#64 ^^^ blend 0#64 u) * 0xb0340f4501000193#64) ^^^
        (((0x811c9dc5#64 ^^^ blend 0#64 u) * 0xb0340f4501000193#64) >>> 3)) := by
    intro u k hu zu
    rw [hashStr, strlen_eq k u zu]
    show basehash (u ++ 0#8 :: k) u.length = _
    rw [basehash, hashLoop, if_neg (by omega), if_pos (by simp), List.take_left]
  rw [key s j hs zs, key t j' ht zt] at h
  have hb := blend_zero_inj hs ht (xor_cancel (fin_inj (Option.some.inj h)))
  have le : ∀ u v : List Byte, u.length ≤ 8 → 0#8 ∉ u → (∀ i, i < 8 → u.getD i 0#8 = v.getD i 0#8) →
      u.length ≤ v.length := by
    intro u v hu zu e
    by_contra hlt
    have hlt : v.length < u.length := by omega
    have := e v.length (by omega)
    rw [List.getD_eq_getElem?_getD, List.getD_eq_getElem?_getD, List.getElem?_eq_getElem hlt,
      List.getElem?_eq_none (Nat.le_refl _)] at this
    have this : u[v.length] = 0#8 := this
    exact zu (this ▸ List.getElem_mem hlt)
  have l := Nat.le_antisymm (le s t hs zs hb) (le t s ht zt fun i hi => (hb i hi).symm)
  apply List.ext_getElem l
  intro i hi hi'
  have := hb i (by omega)
  simpa [List.getD_eq_getElem?_getD, List.getElem?_eq_getElem hi, List.getElem?_eq_getElem hi'] using this

example : hashStr ([0x61, 0x62] ++ [0#8]) ≠ hashStr ([0x62, 0x61, 0x61] ++ [0#8]) := fun h =>
  absurd (hash_str_injective (s := [0x61, 0x62]) (t := [0x62, 0x61, 0x61]) (by decide) (by decide) (by decide)
    (by decide) [] [] h) (by decide)

/-- C144. Larger objects made of eight-byte words have different hashes if they differ in exactly one of
the words. -/
theorem hash_one_word {p x y s : List Byte} (hp : p.length % 8 = 0) (hx : x.length = 8) (hy : y.length = 8)
    (hs : s.length % 8 = 0)
    (h : hashN (p ++ x ++ s) (p ++ x ++ s).length = hashN (p ++ y ++ s) (p ++ y ++ s).length) : x = y := by
  have l1 : (p ++ x ++ s).length = p.length + 8 + s.length := by simp [hx]; omega
  have l2 : (p ++ y ++ s).length = p.length + 8 + s.length := by simp [hy]; omega
  by_cases h8 : p.length + s.length = 0
  · have hp0 : p = [] := List.length_eq_zero_iff.mp (by omega)
    have hs0 : s = [] := List.length_eq_zero_iff.mp (by omega)
    subst hp0 hs0
    have := hash_injective (s := [] ++ x ++ []) (t := [] ++ y ++ []) (by omega) (by omega) h
    simpa using this
  · unfold hashN at h
    rw [if_neg (by omega), if_neg (by omega), if_neg (by omega), if_neg (by omega)] at h
    obtain ⟨r, hr⟩ := hashLoop_local ((p ++ x ++ s).length + 1) (p ++ x ++ s) 0#64 0x811c9dc5#64 (by omega)
    have hr := hr []
    rw [List.append_nil] at hr
    have hr2 : basehash (p ++ y ++ s) (p ++ y ++ s).length = some r := h ▸ hr
    rw [basehash, l2, ← l1] at hr2
    exact hashLoop_word ((p ++ x ++ s).length + 1) p x y s _ _ r hp hx hy hs hr
      (by rw [l2, ← l1]; exact hr2)

example : hashN ([1, 0, 0, 0, 0, 0, 0, 0] ++ [2, 0, 0, 0, 0, 0, 0, 0] ++ []) 16 ≠
    hashN ([1, 0, 0, 0, 0, 0, 0, 0] ++ [3, 0, 0, 0, 0, 0, 0, 0] ++ []) 16 := fun h =>
  absurd (hash_one_word (p := [1, 0, 0, 0, 0, 0, 0, 0]) (x := [2, 0, 0, 0, 0, 0, 0, 0])
    (y := [3, 0, 0, 0, 0, 0, 0, 0]) (s := []) rfl rfl rfl rfl h) (by decide)

/-- C144. Objects of eight bytes that are the same integer have the same bytes and hence the same hash;
for floating point keys this fails: the two zeros compare equal but have different hashes, which the
hash map requires not to happen. -/
theorem float_zero_hash :
    f64eq 0x0#64 0x8000000000000000#64 = true ∧
      hashN (bytes64 0x0#64) 8 ≠ hashN (bytes64 0x8000000000000000#64) 8 := by
  decide +kernel

/-- C144 (partial: floating point keys other than zero). For all other numbers keys that compare equal
have the same hash. -/
theorem float_hash_partial {x y : BitVec 64} (h : f64eq x y = true) (hx : x &&& 0x7fffffffffffffff#64 ≠ 0#64) :
    hashN (bytes64 x) 8 = hashN (bytes64 y) 8 := by
  have : x = y := by
    simp only [f64eq, Bool.and_eq_true, Bool.or_eq_true, beq_iff_eq] at h
    rcases h.2 with h | h
    · exact h
    · exact absurd h.1 hx
  rw [this]

/-- 1.5 -/
example : f64eq 0x3ff8000000000000#64 0x3ff8000000000000#64 = true ∧
    (0x3ff8000000000000#64 &&& 0x7fffffffffffffff#64) ≠ 0#64 := by decide

/-! ### C145: combining hashes -/

/-- C145 ("non-commutative hash combine!"). Exchanging two different hashes changes the result. -/
theorem mix_not_commutative {a b : BitVec 64} (h : mix [a, b] = mix [b, a]) : a = b := by
  have e : a + (a ^^^ b) = b + (b ^^^ a) := Option.some.inj h
  rw [BitVec.xor_comm b a] at e
  have := congrArg (· - (a ^^^ b)) e
  simpa [BitVec.add_sub_cancel] using this

example : mix [3#64, 5#64] ≠ mix [5#64, 3#64] := fun h => absurd (mix_not_commutative h) (by decide)

/-- C145. The last of the hashes always matters: however many are combined, changing the last one changes
the result. -/
theorem mix_last_injective {h : BitVec 64} {t : List (BitVec 64)} {x y : BitVec 64}
    (e : mix (h :: t ++ [x]) = mix (h :: t ++ [y])) : x = y := by
  have e : mixLoop h (t ++ [x]) = mixLoop h (t ++ [y]) := Option.some.inj e
  rw [mixLoop_append, mixLoop_append] at e
  have := congrArg (· - mixLoop h t) e
  rw [BitVec.add_comm (mixLoop h t), BitVec.add_comm (mixLoop h t)] at this
  simp only [BitVec.add_sub_cancel] at this
  exact xor_cancel this

example : mix ([1#64, 2#64] ++ [3#64]) ≠ mix ([1#64, 2#64] ++ [4#64]) := fun h =>
  absurd (mix_last_injective (h := 1#64) (t := [2#64]) h) (by decide)

/-- C145, refutation: the other hashes need not matter. If the last hash has all bits set, the result is
that hash, whatever the others are. -/
theorem mix_loses_all (h : BitVec 64) (t : List (BitVec 64)) :
    mix (h :: t ++ [BitVec.allOnes 64]) = some (BitVec.allOnes 64) := by
  show some (mixLoop h (t ++ [BitVec.allOnes 64])) = _
  rw [mixLoop_append, BitVec.xor_allOnes]
  exact congrArg some (BitVec.add_not_self _)

/-- C145, refutation: and with a last hash of 0 two hashes that differ in the highest bit only give the same
result. -/
theorem mix_loses_top (h : BitVec 64) : mix [h, 0#64] = mix [h + 0x8000000000000000#64, 0#64] := by
  have e : ∀ x y : BitVec 64, x + y + (x + y) = x + x + (y + y) := by
    intro x y
    ac_rfl
  simp only [mix, mixLoop, BitVec.xor_zero]
  rw [e, show (0x8000000000000000#64 + 0x8000000000000000#64) = 0#64 from by decide, BitVec.add_zero]

/-- C145. The lowest bit of the result is the lowest bit of the last hash. -/
theorem mix_low_bit (h : BitVec 64) (t : List (BitVec 64)) (x : BitVec 64) :
    (mix (h :: t ++ [x])).map (·.getLsbD 0) = some (x.getLsbD 0) := by
  show some ((mixLoop h (t ++ [x])).getLsbD 0) = _
  rw [mixLoop_append]
  refine congrArg some ?_
  simp only [BitVec.getLsbD_add (show 0 < 64 by decide), BitVec.carry_zero, BitVec.getLsbD_xor]
  cases (mixLoop h t).getLsbD 0 <;> cases x.getLsbD 0 <;> rfl

example : (mix ([6#64, 4#64] ++ [3#64])).map (·.getLsbD 0) = some true := mix_low_bit 6#64 [4#64] 3#64

end Verif.Hash
