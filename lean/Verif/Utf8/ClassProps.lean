import Verif.Utf8.Class
import Mathlib.Tactic.Common
/-
Character classes: every test says whether the character is in the listed ranges, for all 32-bit numbers;
how the classes are related; and where they differ from their documentation.
-/
namespace Verif.Utf8.Spec

/-- `c` lies in one of the ranges. -/
def InTab (t : List (Nat × Nat)) (c : Nat) : Prop := ∃ r ∈ t, r.1 ≤ c ∧ c ≤ r.2

/-- The ranges of group `g` contain `c`. -/
def InGroup (g c : Nat) : Prop := ∃ t, groups[g]? = some t ∧ InTab t c

/-- ASCII letters. -/
def Letter (c : Nat) : Prop := (65 ≤ c ∧ c ≤ 90) ∨ (97 ≤ c ∧ c ≤ 122)

/-- The letters: ASCII, and the scripts and number letters of the tables. -/
def Alpha (c : Nat) : Prop :=
  Letter c ∨ 128 ≤ c ∧ (InTab tLatin c ∨ InTab tNl c ∨ InTab tCyrillic c ∨ InTab tHan c ∨ InTab tDevanagari c ∨ InTab tArabic c ∨
    InTab tBengali c ∨ InTab tHiragana c ∨ InTab tKatakana c ∨ InTab tThai c ∨ InTab tGreek c ∨ InTab tGeorgian c)

/-- White space. -/
def Space (c : Nat) : Prop := (9 ≤ c ∧ c ≤ 13) ∨ c = 32 ∨ 128 ≤ c ∧ (InTab tZs c ∨ InTab tZl c ∨ InTab tZp c)

end Verif.Utf8.Spec

namespace Verif.Utf8
open Spec

/-- Ascending, disjoint ranges. -/
def ascending : List (Nat × Nat) → Bool
  | [] => true
  | [r] => r.1 ≤ r.2
  | r :: s :: t => r.1 ≤ r.2 && r.2 < s.1 && ascending (s :: t)

/-- No two ranges overlap. -/
def apart (t u : List (Nat × Nat)) : Bool := t.all fun r => u.all fun s => r.2 < s.1 || s.2 < r.1

theorem ascending_tail {r : Nat × Nat} {t : List (Nat × Nat)} (h : ascending (r :: t) = true) : ascending t = true := by
  cases t with
  | nil => rfl
  | cons s t =>
    simp only [ascending, Bool.and_eq_true] at h
    exact h.2

theorem ascending_lower : ∀ {t : List (Nat × Nat)} {r s : Nat × Nat}, ascending (r :: t) = true → s ∈ r :: t → r.1 ≤ s.1
  | [], r, s, _, hs => by simp at hs; subst hs; exact Nat.le_refl _
  | q :: t, r, s, h, hs => by
    have h2 := ascending_tail h
    simp only [ascending, Bool.and_eq_true, decide_eq_true_eq] at h
    rcases List.mem_cons.1 hs with rfl | hs
    · exact Nat.le_refl _
    · have := ascending_lower h2 hs
      omega

theorem groupLoop_iff {c : Nat} : ∀ {t : List (Nat × Nat)}, ascending t = true → (groupLoop c t = true ↔ InTab t c)
  | [], _ => by simp [groupLoop, InTab]
  | r :: t, h => by
    have ih := groupLoop_iff (c := c) (ascending_tail h)
    unfold groupLoop
    split
    · rename_i h1
      simp only [Bool.false_eq_true, false_iff]
      rintro ⟨s, hs, h2, -⟩
      have := ascending_lower h hs
      omega
    · split
      · rename_i h1 h2
        simp only [true_iff]
        exact ⟨r, by simp, by omega, h2⟩
      · rename_i h1 h2
        rw [ih]
        constructor
        · rintro ⟨s, hs, h3⟩
          exact ⟨s, by simp [hs], h3⟩
        · rintro ⟨s, hs, h3⟩
          rcases List.mem_cons.1 hs with rfl | hs
          · omega
          · exact ⟨s, hs, h3⟩

theorem apart_not {t u : List (Nat × Nat)} (h : apart t u = true) {c : Nat} (h1 : InTab t c) (h2 : InTab u c) : False := by
  obtain ⟨r, hr, h3⟩ := h1
  obtain ⟨s, hs, h4⟩ := h2
  have := List.all_eq_true.1 (List.all_eq_true.1 h r hr) s hs
  simp only [Bool.or_eq_true, decide_eq_true_eq] at this
  omega

theorem groups_ascending : ∀ t ∈ groups, ascending t = true := by decide +kernel

/-- A group contains exactly the characters of its ranges; only the 23 numbers of groups are allowed. -/
theorem class_group (g c : Nat) : (23 ≤ g → isgroup g c = none) ∧ (g < 23 → ∃ b, isgroup g c = some b ∧ (b = true ↔ InGroup g c)) := by
  have hl : groups.length = 23 := rfl
  constructor
  · intro h
    simp [isgroup, List.getElem?_eq_none (show groups.length ≤ g by omega)]
  · intro h
    have hg : groups[g]? = some (groups[g]'(by omega)) := List.getElem?_eq_getElem (by omega)
    refine ⟨_, by rw [isgroup, hg]; rfl, ?_⟩
    rw [groupLoop_iff (groups_ascending _ (List.getElem_mem _))]
    constructor
    · intro h2
      exact ⟨_, hg, h2⟩
    · rintro ⟨t, h2, h3⟩
      rw [hg] at h2
      obtain rfl := Option.some.inj h2
      exact h3

theorem isgroup_tab {g : Nat} {t : List (Nat × Nat)} (c : Nat) (h : groups[g]? = some t) : ∃ b, isgroup g c = some b ∧ (b = true ↔ InTab t c) := by
  have hm : t ∈ groups := List.mem_of_getElem? h
  exact ⟨_, by rw [isgroup, h]; rfl, groupLoop_iff (groups_ascending _ hm)⟩

theorem alphaLoop_iff (c : Nat) : ∀ gs : List Nat, (∀ g ∈ gs, g < 23) → ∃ b, alphaLoop c gs = some b ∧ (b = true ↔ ∃ g ∈ gs, InGroup g c)
  | [], _ => ⟨false, rfl, by simp⟩
  | g :: gs, h => by
    obtain ⟨b, h1, h2⟩ := (class_group g c).2 (h g (by simp))
    obtain ⟨b', h3, h4⟩ := alphaLoop_iff c gs fun g hg => h g (by simp [hg])
    rw [alphaLoop, h1, Option.bind_some]
    cases b
    · refine ⟨b', by simpa using h3, ?_⟩
      rw [h4]
      simp only [List.mem_cons, exists_eq_or_imp]
      constructor
      · exact .inr
      · rintro (h5 | h5)
        · exact absurd (h2.2 h5) (by simp)
        · exact h5
    · exact ⟨true, rfl, by simp only [true_iff]; exact ⟨g, by simp, h2.1 rfl⟩⟩

theorem inGroup_iff {g c : Nat} {t : List (Nat × Nat)} (h : groups[g]? = some t) : InGroup g c ↔ InTab t c := by
  constructor
  · rintro ⟨u, h1, h2⟩
    rw [h] at h1
    obtain rfl := Option.some.inj h1
    exact h2
  · exact fun h2 => ⟨t, h, h2⟩

theorem cAlpha_iff (c : Nat) : cAlpha c = true ↔ Letter c := by simp [cAlpha, Letter]

/-- The letters. -/
theorem class_alpha (c : Nat) : ∃ b, isalpha c = some b ∧ (b = true ↔ Alpha c) := by
  unfold isalpha
  split
  · rename_i h
    refine ⟨_, rfl, ?_⟩
    rw [cAlpha_iff]
    constructor
    · exact .inl
    · rintro (h1 | h1)
      · exact h1
      · omega
  · rename_i h
    obtain ⟨b, h1, h2⟩ := alphaLoop_iff c alphaGroups (by decide)
    refine ⟨b, h1, ?_⟩
    rw [h2]
    simp only [alphaGroups, List.mem_cons, exists_eq_or_imp, List.not_mem_nil, false_and, exists_false, or_false, exists_eq_left]
    rw [inGroup_iff (g := 21) (t := tLatin) rfl, inGroup_iff (g := 3) (t := tNl) rfl, inGroup_iff (g := 14) (t := tCyrillic) rfl, inGroup_iff (g := 18) (t := tHan) rfl,
      inGroup_iff (g := 15) (t := tDevanagari) rfl, inGroup_iff (g := 12) (t := tArabic) rfl, inGroup_iff (g := 13) (t := tBengali) rfl, inGroup_iff (g := 19) (t := tHiragana) rfl,
      inGroup_iff (g := 20) (t := tKatakana) rfl, inGroup_iff (g := 22) (t := tThai) rfl, inGroup_iff (g := 17) (t := tGreek) rfl, inGroup_iff (g := 16) (t := tGeorgian) rfl]
    unfold Alpha Letter
    constructor
    · exact fun h3 => .inr ⟨by omega, h3⟩
    · rintro (h3 | h3)
      · omega
      · exact h3.2

theorem small_ascii {t : List (Nat × Nat)} (h : apart [(0, 127)] t = true) {c : Nat} (h1 : InTab t c) : 128 ≤ c := by
  by_contra h2
  exact apart_not h ⟨(0, 127), by simp, by omega, by omega⟩ h1

theorem nd_ascii {c : Nat} (h : c < 128) : InTab tNd c ↔ 48 ≤ c ∧ c ≤ 57 := by
  have h1 : tNd = (48, 57) :: tNd.tail := rfl
  constructor
  · intro h2
    rw [h1] at h2
    obtain ⟨r, hr, h3⟩ := h2
    rcases List.mem_cons.1 hr with rfl | hr
    · exact h3
    · have := small_ascii (t := tNd.tail) (by decide +kernel) ⟨r, hr, h3⟩
      omega
  · intro h2
    rw [h1]
    exact ⟨(48, 57), by simp, h2⟩

theorem pc_ascii {c : Nat} (h : c < 128) : InTab tPc c ↔ c = 95 := by
  have h1 : tPc = (95, 95) :: tPc.tail := rfl
  constructor
  · intro h2
    rw [h1] at h2
    obtain ⟨r, hr, h3⟩ := h2
    rcases List.mem_cons.1 hr with rfl | hr
    · simp only at h3; omega
    · have := small_ascii (t := tPc.tail) (by decide +kernel) ⟨r, hr, h3⟩
      omega
  · rintro rfl
    rw [h1]
    exact ⟨(95, 95), by simp, by simp, by simp⟩

theorem zs_ascii {c : Nat} (h : c < 128) : InTab tZs c ↔ c = 32 := by
  have h1 : tZs = (32, 32) :: tZs.tail := rfl
  constructor
  · intro h2
    rw [h1] at h2
    obtain ⟨r, hr, h3⟩ := h2
    rcases List.mem_cons.1 hr with rfl | hr
    · simp only at h3; omega
    · have := small_ascii (t := tZs.tail) (by decide +kernel) ⟨r, hr, h3⟩
      omega
  · rintro rfl
    rw [h1]
    exact ⟨(32, 32), by simp, by simp, by simp⟩

/-- Letters and digits: the documented `Alnum = Alpha + Nd`. -/
theorem class_alnum (c : Nat) : ∃ b, isalnum c = some b ∧ (b = true ↔ Alpha c ∨ InTab tNd c) := by
  unfold isalnum
  split
  · rename_i h
    refine ⟨_, rfl, ?_⟩
    rw [nd_ascii h, cAlnum, Bool.or_eq_true, cAlpha_iff]
    have : Alpha c ↔ Letter c := ⟨fun h1 => h1.elim id fun h2 => absurd h2.1 (by omega), .inl⟩
    rw [this, Or.comm]
    simp
  · rename_i h
    obtain ⟨b, h1, h2⟩ := class_alpha c
    obtain ⟨b', h3, h4⟩ := isgroup_tab (g := 2) c rfl
    rw [h1, Option.bind_some]
    cases b
    · exact ⟨b', h3, by rw [h4]; simp at h2; simp [h2]⟩
    · exact ⟨true, rfl, by simp at h2; simp [h2]⟩

/-- Word characters: the documented `Word = Alnum + Pc`. -/
theorem class_word (c : Nat) : ∃ b, isword c = some b ∧ (b = true ↔ Alpha c ∨ InTab tNd c ∨ InTab tPc c) := by
  unfold isword
  split
  · rename_i h
    refine ⟨_, rfl, ?_⟩
    rw [nd_ascii h, pc_ascii h, Bool.or_eq_true, cAlnum, Bool.or_eq_true, cAlpha_iff]
    have : Alpha c ↔ Letter c := ⟨fun h1 => h1.elim id fun h2 => absurd h2.1 (by omega), .inl⟩
    rw [this, Or.comm (a := _ = true) (b := Letter c), or_assoc]
    simp
  · rename_i h
    obtain ⟨b, h1, h2⟩ := class_alpha c
    obtain ⟨b', h3, h4⟩ := isgroup_tab (g := 2) c rfl
    obtain ⟨b'', h5, h6⟩ := isgroup_tab (g := 4) c rfl
    rw [h1, Option.bind_some]
    cases b
    · simp only [Bool.false_eq_true, if_false, h3, Option.bind_some]
      cases b'
      · exact ⟨b'', h5, by rw [h6]; simp at h2 h4; simp [h2, h4, tPc]⟩
      · exact ⟨true, rfl, by simp at h4; simp [h4]⟩
    · exact ⟨true, rfl, by simp at h2; simp [h2]⟩

/-- Blanks: the documented `Zs \t`. -/
theorem class_blank (c : Nat) : ∃ b, isblank c = some b ∧ (b = true ↔ c = 9 ∨ InTab tZs c) := by
  unfold isblank
  split
  · rename_i h
    refine ⟨_, rfl, ?_⟩
    rw [zs_ascii h]
    simp [or_comm]
  · rename_i h
    obtain ⟨b', h3, h4⟩ := isgroup_tab (g := 11) c rfl
    exact ⟨b', h3, by rw [h4]; simp only [show ¬ c = 9 by omega, false_or]⟩

theorem one_tab {c x : Nat} : InTab [(x, x)] c ↔ c = x := by
  constructor
  · rintro ⟨r, hr, h1, h2⟩
    simp at hr
    subst hr
    exact Nat.le_antisymm h2 h1
  · rintro rfl
    exact ⟨(c, c), by simp, by simp, by simp⟩

/-- White space: the documented `Zs \t\r\n\v\f`, and also the line and paragraph separators. -/
theorem class_space (c : Nat) : ∃ b, isspace c = some b ∧ (b = true ↔ Space c) := by
  unfold isspace Space
  rw [show tZl = [(8232, 8232)] from rfl, show tZp = [(8233, 8233)] from rfl, one_tab, one_tab]
  split
  · rename_i h
    exact ⟨_, rfl, by simp [cSpace]; omega⟩
  · rename_i h
    split
    · rename_i h1
      simp only [Bool.or_eq_true, beq_iff_eq] at h1
      refine ⟨true, rfl, ?_⟩
      simp only [true_iff]
      exact .inr (.inr ⟨by omega, .inr h1⟩)
    · rename_i h1
      simp only [Bool.or_eq_true, beq_iff_eq] at h1
      obtain ⟨b', h3, h4⟩ := isgroup_tab (g := 11) c rfl
      refine ⟨b', h3, ?_⟩
      rw [h4]
      constructor
      · exact fun h5 => .inr (.inr ⟨by omega, .inl h5⟩)
      · rintro (h5 | h5 | ⟨-, h5 | h5⟩)
        · omega
        · omega
        · exact h5
        · exact absurd h5 h1

/-- Cased letters: those that some conversion changes, and the title-case letters. -/
theorem class_cased (c : Nat) : ∃ b, iscased c = some b ∧ (128 ≤ c → (b = true ↔ tolower c ≠ c ∨ toupper c ≠ c ∨ InTab tLt c)) ∧ (c < 128 → (b = true ↔ Letter c)) := by
  unfold iscased
  split
  · rename_i h
    exact ⟨_, rfl, by omega, fun _ => cAlpha_iff c⟩
  · rename_i h
    split
    · rename_i h1
      refine ⟨true, rfl, fun _ => ?_, by omega⟩
      simp only [true_iff]
      simp only [islower, isupper, Bool.or_eq_true, bne_iff_ne] at h1
      rcases h1 with h1 | h1
      · exact .inr (.inl h1)
      · exact .inl h1
    · rename_i h1
      simp only [islower, isupper, Bool.or_eq_true, bne_iff_ne, not_or, ne_eq, not_not] at h1
      obtain ⟨b', h3, h4⟩ := isgroup_tab (g := 1) c rfl
      refine ⟨b', h3, fun _ => ?_, by omega⟩
      rw [h4]
      simp only [h1.1, h1.2, ne_eq, not_true_eq_false, false_or]

/-- The general categories do not overlap, and the scripts do not overlap. -/
theorem class_disjoint {g h c : Nat} (hgh : g < h) (hs : h < 12 ∨ 12 ≤ g) (h1 : InGroup g c) (h2 : InGroup h c) : False := by
  have key : ∀ h < 23, ∀ g < h, (h < 12 ∨ 12 ≤ g) → apart (groups.getD g []) (groups.getD h []) = true := by decide +kernel
  obtain ⟨t, ht, h3⟩ := h1
  obtain ⟨u, hu, h4⟩ := h2
  have hl : h < groups.length := (List.getElem?_eq_some_iff.1 hu).1
  have := key h hl g hgh hs
  rw [List.getD_eq_getElem?_getD, List.getD_eq_getElem?_getD, ht, hu] at this
  exact apart_not this h3 h4

macro "mem_tab" : tactic => `(tactic| repeat (first | with_reducible exact List.mem_cons_self | apply List.mem_cons_of_mem))

/-- No word character is white space. -/
theorem class_word_space (c : Nat) (h1 : isword c = some true) (h2 : isspace c = some true) : False := by
  obtain ⟨b, h3, h4⟩ := class_word c
  rw [h1] at h3
  obtain rfl := Option.some.inj h3
  obtain ⟨b, h5, h6⟩ := class_space c
  rw [h2] at h5
  obtain rfl := Option.some.inj h5
  have h7 := h4.1 rfl
  have h8 := h6.1 rfl
  let st := [[(9, 13)], [(32, 32)], tZs.tail, tZl, tZp]
  let wt := [[(65, 90)], [(97, 122)], tLatin, tNl, tCyrillic, tHan, tDevanagari, tArabic, tBengali, tHiragana, tKatakana, tThai, tGreek, tGeorgian, tNd, tPc]
  have key : ∀ t ∈ wt, ∀ u ∈ st, apart t u = true := by decide +kernel
  have hw : ∃ t ∈ wt, InTab t c := by
    rcases h7 with ((h | h) | ⟨-, h⟩) | h | h
    · exact ⟨[(65, 90)], by mem_tab, (65, 90), by simp, h⟩
    · exact ⟨[(97, 122)], by mem_tab, (97, 122), by simp, h⟩
    · rcases h with h | h | h | h | h | h | h | h | h | h | h | h <;> exact ⟨_, by mem_tab, h⟩
    · exact ⟨tNd, by mem_tab, h⟩
    · exact ⟨tPc, by mem_tab, h⟩
  have hs : ∃ u ∈ st, InTab u c := by
    rcases h8 with h | h | ⟨h9, h | h | h⟩
    · exact ⟨[(9, 13)], by mem_tab, (9, 13), by simp, h⟩
    · exact ⟨[(32, 32)], by mem_tab, (32, 32), by simp, by simp [h]⟩
    · refine ⟨tZs.tail, by mem_tab, ?_⟩
      rw [show tZs = (32, 32) :: tZs.tail from rfl] at h
      obtain ⟨r, hr, h⟩ := h
      rcases List.mem_cons.1 hr with rfl | hr
      · simp only at h; omega
      · exact ⟨r, hr, h⟩
    · exact ⟨tZl, by mem_tab, h⟩
    · exact ⟨tZp, by mem_tab, h⟩
  obtain ⟨t, ht, hw⟩ := hw
  obtain ⟨u, hu, hs⟩ := hs
  exact apart_not (key t ht u hu) hw hs

/-- Characters outside the basic plane are in no group. -/
theorem class_plane {g c : Nat} (h : InGroup g c) : c < 65536 := by
  obtain ⟨t, ht, r, hr, h1, h2⟩ := h
  have key : ∀ t ∈ groups, ∀ r ∈ t, r.2 < 65536 := by decide +kernel
  have := key t (List.mem_of_getElem? ht) r hr
  omega

/-- The ASCII characters of a group: control characters, digits, `_`, `-`, `$`, the space, the letters (of
the Latin script), and none in the other groups. -/
def _root_.Verif.Utf8.Spec.asciiGroup (g c : Nat) : Bool :=
  match g with
  | 0 => c < 32 || c == 127
  | 2 => 48 ≤ c && c ≤ 57
  | 4 => c == 95
  | 5 => c == 45
  | 8 => c == 36
  | 11 => c == 32
  | 21 => 65 ≤ c && c ≤ 90 || 97 ≤ c && c ≤ 122
  | _ => false

/-- For ASCII characters every group is as described. -/
theorem class_ascii {g c : Nat} (hg : g < 23) (hc : c < 128) : isgroup g c = some (asciiGroup g c) := by
  have key : ∀ g < 23, ∀ c < 128, isgroup g c = some (asciiGroup g c) := by decide +kernel
  exact key g hg c hc

/-- The control characters are the two blocks below the space and behind the tilde, as in ISO 8859. -/
theorem class_control (c : Nat) : InGroup 0 c ↔ c < 32 ∨ (127 ≤ c ∧ c < 160) := by
  rw [inGroup_iff (t := tCc) rfl]
  constructor
  · rintro ⟨r, hr, h1, h2⟩
    simp only [tCc, List.mem_cons, List.not_mem_nil, or_false] at hr
    rcases hr with rfl | rfl <;> simp only at h1 h2 <;> omega
  · rintro (h | h)
    · exact ⟨(0, 31), by simp [tCc], Nat.zero_le _, by simp only; omega⟩
    · exact ⟨(127, 159), by simp [tCc], h.1, by simp only; omega⟩

/-- Decimal digits come in rows of ten: with a digit the group contains a row that it belongs to. -/
theorem class_digits {c : Nat} (h : InGroup 2 c) : ∃ z, z ≤ c ∧ c < z + 10 ∧ ∀ d < 10, InGroup 2 (z + d) := by
  obtain ⟨t, ht, r, hr, h1, h2⟩ := h
  cases ht
  have key : ∀ r ∈ tNd, (r.2 + 1 - r.1) % 10 = 0 := by decide +kernel
  have hk := key r hr
  refine ⟨r.1 + (c - r.1) / 10 * 10, by omega, by omega, fun d hd => ?_⟩
  exact ⟨tNd, rfl, r, hr, by omega, by omega⟩

/-- Surrogates are in no group. -/
theorem class_surrogate {g c : Nat} (h : InGroup g c) : c < 0xD800 ∨ 0xDFFF < c := by
  obtain ⟨t, ht, h1⟩ := h
  have key : ∀ t ∈ groups, apart [(0xD800, 0xDFFF)] t = true := by decide +kernel
  by_contra h2
  exact apart_not (key t (List.mem_of_getElem? ht)) ⟨(0xD800, 0xDFFF), by simp, by simp only; omega, by simp only; omega⟩ h1

example : isgroup 0 0 = some true := class_ascii (by decide) (by decide)

example : ∃ z, z ≤ 0x665 ∧ 0x665 < z + 10 ∧ ∀ d < 10, InGroup 2 (z + d) := class_digits ⟨tNd, rfl, (1632, 1641), by decide, by decide, by decide⟩

/-- π is a letter and a Greek one, U+0661 a digit, U+2003 a blank; U+1F600 is in no class. -/
example : isalpha 0x3C0 = some true ∧ isgroup 17 0x3C0 = some true ∧ isgroup 2 0x661 = some true ∧ isblank 0x2003 = some true ∧ isword 0x1F600 = some false := by decide +kernel

example : InGroup 2 0x661 := ⟨tNd, rfl, (1632, 1641), by decide, by decide, by decide⟩

/-- The documentation describes `\p{Alpha}` as cased letters and number letters. Armenian letters are cased,
and not letters; -/
theorem alpha_misses_cased : iscased 0x531 = some true ∧ isalpha 0x531 = some false ∧ isword 0x531 = some false := by decide +kernel

/-- and Arabic digits and a Bengali currency sign are letters. -/
theorem alpha_has_digits : isgroup 2 0x661 = some true ∧ isalpha 0x661 = some true ∧ isgroup 8 0x9F2 = some true ∧ isalpha 0x9F2 = some true := by decide +kernel

end Verif.Utf8
