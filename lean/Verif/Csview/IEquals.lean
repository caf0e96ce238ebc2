import Verif.Csview.Props
/-
The case-insensitive equality tests of strings with a terminating NUL: cstr_prv.h:293-294, zsview.h:153-159, and
how their answers relate to those of cstr_prv.h:288-291 and csview.h:156-163 (`iequalsSv`).
-/
namespace Verif.Csview
open Verif.Utf8 Verif.Utf8.Spec Spec

/-- cstr_prv.h:293-294 `cstr_iequals`. -/
def cstrIequals (s t : List Byte) : Option Bool := (icmp s t).map (· == 0)

/-- zsview.h:153-154 `zsview_ieq` of two views of `n1` and `n2` bytes. -/
def zIeq (s : List Byte) (n1 : Nat) (t : List Byte) (n2 : Nat) : Option Bool :=
  if n1 = n2 then (icmp s t).map (· == 0) else some false

/-- zsview.h:158-159 `zsview_iequals` of a view of `n1` bytes. -/
def zIequals (s : List Byte) (n1 : Nat) (t : List Byte) : Option Bool :=
  (strlen t).bind fun n => if n = n1 then (icmp s t).map (· == 0) else some false

/-- C174: `cstr_iequals` decides equality of the texts without regard to case. -/
theorem cstr_iequals (a b : List Nat) (j1 j2 : List Byte) (ha : Text a) (hb : Text b)
    (l1 : (text a).length < 2 ^ 63 - 1) (l2 : (text b).length < 2 ^ 63 - 1) :
    ∃ r, cstrIequals (text a ++ 0#8 :: j1) (text b ++ 0#8 :: j2) = some r ∧ (r = true ↔ a.map casefold = b.map casefold) := by
  obtain ⟨r, e, hz, _⟩ := icmp_string_partial a b j1 j2 ha hb l1 l2
  exact ⟨r == 0, by rw [cstrIequals, e]; rfl, by rw [beq_iff_eq, hz]⟩

example : ∃ r, cstrIequals (text [0x212A, 0xC9] ++ 0#8 :: [7#8]) (text [0x6B, 0xE9] ++ 0#8 :: []) = some r ∧ r = true := by
  obtain ⟨r, e, h⟩ := cstr_iequals [0x212A, 0xC9] [0x6B, 0xE9] [7#8] [] (by decide) (by decide) (by decide) (by decide)
  exact ⟨r, e, h.2 (by decide +kernel)⟩

/-- C174 (partial: the texts must also have the same number of bytes): `zsview_ieq` and `zsview_iequals`. -/
theorem zsview_iequals_partial (a b : List Nat) (j1 j2 : List Byte) (ha : Text a) (hb : Text b)
    (l1 : (text a).length < 2 ^ 63 - 1) (l2 : (text b).length < 2 ^ 63 - 1) :
    ∃ r, zIeq (text a ++ 0#8 :: j1) (text a).length (text b ++ 0#8 :: j2) (text b).length = some r ∧
      zIequals (text a ++ 0#8 :: j1) (text a).length (text b ++ 0#8 :: j2) = some r ∧
      (r = true ↔ (text a).length = (text b).length ∧ a.map casefold = b.map casefold) := by
  obtain ⟨r, e, hz, _⟩ := icmp_string_partial a b j1 j2 ha hb l1 l2
  rw [zIeq, zIequals, strlen_eq j2 _ (text_no_nul hb), Option.bind_some]
  by_cases hl : (text a).length = (text b).length
  · rw [if_pos hl, if_pos hl.symm, e]
    exact ⟨r == 0, rfl, rfl, by rw [beq_iff_eq, hz]; simp [hl]⟩
  · rw [if_neg hl, if_neg (fun h => hl h.symm)]
    exact ⟨false, rfl, rfl, by simp [hl]⟩

example : ∃ r, zIequals (text [0x416, 0x41] ++ 0#8 :: []) 3 (text [0x436, 0x61] ++ 0#8 :: []) = some r ∧ r = true := by
  obtain ⟨r, _, e, h⟩ := zsview_iequals_partial [0x416, 0x41] [0x436, 0x61] [] [] (by decide) (by decide) (by decide) (by decide)
  exact ⟨r, e, h.2 ⟨by decide, by decide +kernel⟩⟩

/-- C174 (partial: texts whose characters keep their number of bytes when the case is folded, below 2 GiB): all the
tests agree, whichever type the strings have. -/
theorem iequals_agree_partial (a b : List Nat) (j1 j2 : List Byte) (ha : Good a) (hb : Good b) :
    ∃ r, cstrIequals (text a ++ 0#8 :: j1) (text b ++ 0#8 :: j2) = some r ∧
      zIeq (text a ++ 0#8 :: j1) (text a).length (text b ++ 0#8 :: j2) (text b).length = some r ∧
      zIequals (text a ++ 0#8 :: j1) (text a).length (text b ++ 0#8 :: j2) = some r ∧
      iequalsSv (text a ++ 0#8 :: j1) (text a).length (text b ++ 0#8 :: j2) (text b).length = some r ∧
      (r = true ↔ a.map casefold = b.map casefold) := by
  have l1 : (text a).length < 2 ^ 63 - 1 := Nat.lt_of_lt_of_le ha.2.2 (by decide)
  have l2 : (text b).length < 2 ^ 63 - 1 := Nat.lt_of_lt_of_le hb.2.2 (by decide)
  obtain ⟨r1, e1, h1⟩ := cstr_iequals a b j1 j2 ha.1 hb.1 l1 l2
  obtain ⟨r2, e2, e2', h2⟩ := zsview_iequals_partial a b j1 j2 ha.1 hb.1 l1 l2
  obtain ⟨r3, e3, h3⟩ := iequals_partial a b (0#8 :: j1) (0#8 :: j2) ha hb
  have key : ∀ a : List Nat, (∀ c ∈ a, Stable c) → (text a).length = (text (a.map casefold)).length := by
    intro a
    induction a with
    | nil => intro _; rfl
    | cons c a ih =>
      intro h
      rw [List.map_cons, text_cons, text_cons, List.length_append, List.length_append, h c (by simp),
        ih (fun x hx => h x (by simp [hx]))]
  have h2' : r2 = true ↔ a.map casefold = b.map casefold :=
    h2.trans ⟨fun h => h.2, fun h => ⟨by rw [key a ha.2.1, key b hb.2.1, h], h⟩⟩
  have e21 : r2 = r1 := Bool.eq_iff_iff.2 (h2'.trans h1.symm)
  have e31 : r3 = r1 := Bool.eq_iff_iff.2 (h3.trans h1.symm)
  subst e21 e31
  exact ⟨_, e1, e2, e2', e3, h1⟩

example : ∃ r, cstrIequals (text [0x416] ++ 0#8 :: []) (text [0x436] ++ 0#8 :: []) = some r ∧
    iequalsSv (text [0x416] ++ 0#8 :: []) 2 (text [0x436] ++ 0#8 :: []) 2 = some r ∧ r = true := by
  obtain ⟨r, e1, _, _, e2, h⟩ := iequals_agree_partial [0x416] [0x436] [] [] ⟨by decide, by decide +kernel, by decide⟩
    ⟨by decide, by decide +kernel, by decide⟩
  exact ⟨r, e1, e2, h.2 (by decide +kernel)⟩

/-- C174, refutation: the tests disagree in both directions. The KELVIN SIGN and "k" are equal for `cstr_iequals` and
different for the others; the KELVIN SIGN and "kab" are equal for `cstr_ieq` and `csview_ieq` and different for
the others. -/
theorem iequals_disagree :
    cstrIequals (text [0x212A] ++ [0#8]) (text [0x6B] ++ [0#8]) = some true ∧
    zIeq (text [0x212A] ++ [0#8]) 3 (text [0x6B] ++ [0#8]) 1 = some false ∧
    zIequals (text [0x212A] ++ [0#8]) 3 (text [0x6B] ++ [0#8]) = some false ∧
    iequalsSv (text [0x212A] ++ [0#8]) 3 (text [0x6B] ++ [0#8]) 1 = some false ∧
    cstrIequals (text [0x212A] ++ [0#8]) (text [0x6B, 0x61, 0x62] ++ [0#8]) = some false ∧
    zIeq (text [0x212A] ++ [0#8]) 3 (text [0x6B, 0x61, 0x62] ++ [0#8]) 3 = some false ∧
    iequalsSv (text [0x212A] ++ [0#8]) 3 (text [0x6B, 0x61, 0x62] ++ [0#8]) 3 = some true := by
  decide +kernel

end Verif.Csview
