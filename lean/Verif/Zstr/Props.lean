import Verif.Zstr.Lemmas
/- C126 (search in NUL-terminated strings), C127 (prefix, suffix and equality tests), C128 (moving by
code points), C129 (parts of a NUL-terminated string by position). -/
namespace Verif.Zstr
open Verif.Utf8 Verif.Utf8.Spec Verif.Csview Verif.Csview.Spec

/-! ### C126 -/

/-- C126 (partial: the text holds no NUL). `find` and `contains` of a string and a C string: the
leftmost occurrence, or NPOS when there is none. -/
theorem find_partial (s c j j2 : List Byte) (hs : 0#8 ∉ s) (hc : 0#8 ∉ c) (hl : s.length < NPOS) :
    (∃ r, find (s ++ 0#8 :: j) (c ++ 0#8 :: j2) = some r ∧
      ((r = NPOS ∧ ∀ i ≤ s.length, ¬ At c s i) ∨
       (r + c.length ≤ s.length ∧ At c s r ∧ ∀ i < r, ¬ At c s i))) ∧
    contains (s ++ 0#8 :: j) (c ++ 0#8 :: j2) = some (decide (c <:+: s)) := by
  obtain ⟨r, e, h1, h2⟩ := strstr_spec s j c j2 hs hc
  have hf : ∃ r, find (s ++ 0#8 :: j) (c ++ 0#8 :: j2) = some r ∧
      ((r = NPOS ∧ ∀ i ≤ s.length, ¬ At c s i) ∨
       (r + c.length ≤ s.length ∧ At c s r ∧ ∀ i < r, ¬ At c s i)) := by
    cases r with
    | none => exact ⟨NPOS, by rw [find, e]; rfl, Or.inl ⟨rfl, h1 rfl⟩⟩
    | some i => exact ⟨i, by rw [find, e]; rfl, Or.inr (h2 i rfl)⟩
  refine ⟨hf, ?_⟩
  obtain ⟨r, e, h⟩ := hf
  rw [contains, e, Option.map_some]
  congr 1
  rw [Bool.eq_iff_iff, decide_eq_true_iff, bne_iff_ne, infix_iff]
  rcases h with ⟨hr, h⟩ | ⟨h1, h2, _⟩
  · subst hr
    simp only [ne_eq, not_true_eq_false, false_iff, not_exists, not_and]
    exact h
  · exact ⟨fun _ => ⟨r, by omega, h2⟩, fun _ => by omega⟩

example : find ([1, 2, 1, 2, 3] ++ 0#8 :: [9]) ([2, 3] ++ 0#8 :: [7#8]) = some 3 := by decide

/-- C126 (partial: no NUL in the text, position not negative). `find_at` finds the leftmost
occurrence that does not begin before the position; beyond the end there is none. -/
theorem find_at_partial (s c j j2 : List Byte) (pos : Nat) (hs : 0#8 ∉ s) (hc : 0#8 ∉ c) :
    ∃ r, findAt (s ++ 0#8 :: j) s.length pos (c ++ 0#8 :: j2) = some r ∧
      ((r = NPOS ∧ ∀ i, pos ≤ i → i ≤ s.length → ¬ At c s i) ∨
       (pos ≤ r ∧ r + c.length ≤ s.length ∧ At c s r ∧ ∀ i, pos ≤ i → i < r → ¬ At c s i)) := by
  rw [findAt]
  by_cases hp : pos ≤ s.length
  · rw [if_neg (by omega), if_neg (by omega), Int.toNat_natCast, List.drop_append_of_le_length hp]
    obtain ⟨r, e, h1, h2⟩ := strstr_spec (s.drop pos) j c j2 (fun h => hs (List.mem_of_mem_drop h)) hc
    rw [e]
    cases r with
    | none =>
      refine ⟨NPOS, rfl, Or.inl ⟨rfl, fun i h3 h4 h => ?_⟩⟩
      refine h1 rfl (i - pos) (by simp; omega) ?_
      rw [List.drop_drop, show pos + (i - pos) = i by omega]; exact h
    | some i =>
      obtain ⟨g1, g2, g3⟩ := h2 i rfl
      rw [List.length_drop] at g1
      refine ⟨i + pos, rfl, Or.inr ⟨by omega, by omega, ?_, fun i' h3 h4 h => ?_⟩⟩
      · rw [At, show i + pos = pos + i by omega, ← List.drop_drop]; exact g2
      · refine g3 (i' - pos) (by omega) ?_
        rw [List.drop_drop, show pos + (i' - pos) = i' by omega]; exact h
  · rw [if_pos (by omega)]
    exact ⟨NPOS, rfl, Or.inl ⟨rfl, fun i h3 h4 _ => by omega⟩⟩

example : findAt ([2, 3, 1, 2, 3] ++ 0#8 :: [9]) 5 1 ([2, 3] ++ 0#8 :: [7#8]) = some 3 := by decide

/-- C126, refutation: a search with a C string does not see what follows a NUL in the text,
whatever it is. -/
theorem find_stops_at_nul (s t c j2 : List Byte) (hs : 0#8 ∉ s) (hc : 0#8 ∉ c) (h : ¬ c <:+: s) :
    find (s ++ 0#8 :: t) (c ++ 0#8 :: j2) = some NPOS ∧
    contains (s ++ 0#8 :: t) (c ++ 0#8 :: j2) = some false := by
  obtain ⟨r, e, h1, h2⟩ := strstr_spec s t c j2 hs hc
  have hr : r = none := by
    cases r with
    | none => rfl
    | some i =>
      obtain ⟨g1, g2, _⟩ := h2 i rfl
      exact absurd (infix_iff.2 ⟨i, by omega, g2⟩) h
  subst hr
  have hf : find (s ++ 0#8 :: t) (c ++ 0#8 :: j2) = some NPOS := by rw [find, e]; rfl
  exact ⟨hf, by rw [contains, hf]; simp⟩

/-- C126, refutation: the five bytes `a NUL b c NUL`, a string of size 4 holding "bc": the search
for a view finds it, the search for the same bytes as a C string does not. -/
theorem find_nul_wrong :
    findSv [0x61, 0, 0x62, 0x63, 0#8] 4 [0x62, 0x63#8] 2 = some 2 ∧
    find [0x61, 0, 0x62, 0x63, 0#8] [0x62, 0x63, 0#8] = some NPOS ∧
    containsSv [0x61, 0, 0x62, 0x63, 0#8] 4 [0x62, 0x63#8] 2 = some true ∧
    contains [0x61, 0, 0x62, 0x63, 0#8] [0x62, 0x63, 0#8] = some false := by decide

/-- C126, refutation: a negative position is not rejected; the search starts before the buffer. -/
theorem find_at_negative (str sub : List Byte) (size : Nat) (pos : Int) (h : pos < 0) :
    findAt str size pos sub = none := by
  rw [findAt, if_neg (by omega), if_pos h]

/-! ### C127 -/

/-- C127. Prefix tests: for every text, with NULs or not, the C string variants (the byte loop of
strings, the counted one of zero-terminated views) and the view variant agree with being a prefix. -/
theorem starts_with (s c q j j2 : List Byte) (hc : 0#8 ∉ c) (hl : s.length < NPOS) :
    startsWith (s ++ 0#8 :: j) (c ++ 0#8 :: j2) = some (decide (c <+: s)) ∧
    Csview.startsWith (s ++ 0#8 :: j) s.length (c ++ 0#8 :: j2) = some (decide (c <+: s)) ∧
    startsWithSv (s ++ 0#8 :: j) s.length (q ++ j2) q.length = some (decide (q <+: s)) := by
  refine ⟨startsWith_spec j j2 c s hc, (prefix_suffix_infix s c _ j2 hc hl).1, ?_⟩
  rw [startsWithSv]
  by_cases h : q.length ≤ s.length
  · rw [if_neg (by omega), memcmp_eq (by simp; omega) (by simp), List.take_append_of_le_length h, List.take_left]
    congr 1; rw [decide_eq_decide, prefix_iff_take]
    exact ⟨fun e => ⟨h, e⟩, fun e => e.2⟩
  · rw [if_pos (by omega)]
    congr 1; symm; rw [decide_eq_false_iff_not]
    intro hp; exact h hp.length_le

example : startsWith ([1, 0, 3] ++ 0#8 :: []) ([1] ++ 0#8 :: [5]) = some true := by decide

/-- C127. Suffix and infix tests with views, for every text. -/
theorem ends_with_contains (s q j j2 : List Byte) (hl : s.length < NPOS) :
    endsWithSv (s ++ 0#8 :: j) s.length (q ++ j2) q.length = some (decide (q <:+ s)) ∧
    containsSv (s ++ 0#8 :: j) s.length (q ++ j2) q.length = some (decide (q <:+: s)) := by
  constructor
  · rw [endsWithSv]
    by_cases h : q.length ≤ s.length
    · have hl : (s.drop (s.length - q.length)).length = q.length := by simp; omega
      have e : (s.drop (s.length - q.length) ++ 0#8 :: j).take q.length = s.drop (s.length - q.length) := by
        rw [List.take_append_of_le_length (by omega), List.take_of_length_le (by omega)]
      rw [if_neg (by omega), memcmp_eq (by simp; omega) (by simp), List.drop_append_of_le_length (by omega),
        List.take_left, e]
      congr 1; rw [decide_eq_decide, List.suffix_iff_eq_drop]
      exact ⟨fun e => e.symm, fun e => e.symm⟩
    · rw [if_pos (by omega)]
      congr 1; symm; rw [decide_eq_false_iff_not]
      intro hp; exact h hp.length_le
  · obtain ⟨r, e, h⟩ := find_leftmost s q (0#8 :: j) j2 hl
    rw [containsSv, e, Option.map_some]
    congr 1
    rw [Bool.eq_iff_iff, decide_eq_true_iff, bne_iff_ne, infix_iff]
    rcases h with ⟨hr, h⟩ | ⟨h1, h2, _⟩
    · subst hr
      simp only [ne_eq, not_true_eq_false, false_iff, not_exists, not_and]
      exact h
    · exact ⟨fun _ => ⟨r, by omega, h2⟩, fun _ => by omega⟩

example : endsWithSv ([1, 0, 3] ++ 0#8 :: []) 3 ([0, 3] ++ [5#8]) 2 = some true := by decide

/-- C127 (the first conjunct is partial: the text holds no NUL). Equality with a C string or a view
is equality of the bytes. -/
theorem equals_partial (s c q j j2 : List Byte) (hc : 0#8 ∉ c) :
    (0#8 ∉ s → equals (s ++ 0#8 :: j) (c ++ 0#8 :: j2) = some (decide (s = c))) ∧
    zequals (s ++ 0#8 :: j) s.length (c ++ 0#8 :: j2) = some (decide (s = c)) ∧
    equalsSv (s ++ 0#8 :: j) s.length (q ++ j2) q.length = some (decide (s = q)) := by
  refine ⟨fun hs => ?_, ?_, ?_⟩
  · obtain ⟨r, e, _, h⟩ := string_order s c j j2 hs hc
    rw [equals, e, Option.map_some]
    congr 1
    rw [Bool.eq_iff_iff, beq_iff_eq, decide_eq_true_iff]; exact h
  · rw [zequals, strlen_eq j2 c hc]
    exact (view_order s c _ _).1
  · rw [equalsSv, (view_order q s _ _).1]
    congr 1; rw [decide_eq_decide]; exact eq_comm

example : zequals ([1, 0, 3] ++ 0#8 :: []) 3 ([1] ++ 0#8 :: [5]) = some false := by decide

/-- C127, refutation: a string is equal to the C string of its bytes before the first NUL, whatever
follows; the zero-terminated view of the same bytes is not. -/
theorem equals_nul_wrong (s t j2 : List Byte) (hs : 0#8 ∉ s) :
    equals (s ++ 0#8 :: t ++ [0#8]) (s ++ 0#8 :: j2) = some true ∧
    zequals (s ++ 0#8 :: t ++ [0#8]) (s ++ 0#8 :: t).length (s ++ 0#8 :: j2) = some false := by
  constructor
  · rw [List.append_assoc, List.cons_append, (equals_partial s s [] _ _ hs).1 hs]; simp
  · rw [(equals_partial (s ++ 0#8 :: t) s [] [] _ hs).2.1]
    simp

/-! ### C128 -/

/-- C128 (partial: moving back no further than the first character). An iterator at the `i`-th
character of a text, advanced by `k` characters in either direction, stands at character `i + k`, with
the size of that character; at or past the end of the text it is the end. Peeking does the same.
Nothing is assumed about the bytes before the text in its object, or after its terminator. -/
theorem advance_partial (pre j : List Byte) (cs : List Nat) (h : Text cs) (i : Nat) (hi : i < cs.length) (k : Int)
    (hk : -(i : Int) ≤ k) (hr : -2 ^ 63 < k) :
    (∀ t : Nat, i + k = t → (ht : t < cs.length) →
      advance (pre ++ text cs ++ 0#8 :: j) (pre.length + (text (cs.take i)).length) k =
        some (some (pre.length + (text (cs.take t)).length), (enc cs[t]).length) ∧
      peekAt (pre ++ text cs ++ 0#8 :: j) (pre.length + (text (cs.take i)).length) k = some cs[t]) ∧
    (cs.length ≤ i + k →
      advance (pre ++ text cs ++ 0#8 :: j) (pre.length + (text (cs.take i)).length) k = some (none, 1) ∧
      peekAt (pre ++ text cs ++ 0#8 :: j) (pre.length + (text (cs.take i)).length) k = some 0) := by
  have key : ∃ t : Nat, i + k = t ∧
      offset (pre ++ text cs ++ 0#8 :: j) (pre.length + (text (cs.take i)).length) k =
        some (pre.length + (text (cs.take t)).length) := by
    by_cases h0 : 0 ≤ k
    · refine ⟨i + k.toNat, by omega, ?_⟩
      have := offset_fwd pre j cs h i k.toNat
      rwa [Int.toNat_of_nonneg h0] at this
    · refine ⟨i - k.natAbs, by omega, ?_⟩
      have := (offset_bwd pre j cs h i k.natAbs hi (by omega) (by omega)).1 (by omega)
      rwa [show -(k.natAbs : Int) = k by omega] at this
  obtain ⟨t, e, ho⟩ := key
  constructor
  · intro t' e' ht
    obtain rfl : t = t' := by omega
    obtain ⟨b, hb, hb0, hs⟩ := getElem_text pre j cs h t ht
    have hc := h cs[t] (List.getElem_mem _)
    constructor
    · rw [advance, ho]
      simp only [Option.bind_eq_bind, Option.bind_some, hb, hs, if_neg hb0]
    · rw [peekAt, ho]
      simp only [Option.bind_eq_bind, Option.bind_some]
      rw [drop_text, List.drop_eq_getElem_cons ht, text_cons, List.append_assoc, ← encode_eq hc.1]
      exact ((utf8_round_trip cs[t] _).1 hc.1).2.1
  · intro ht
    have ht' : cs.length ≤ t := by omega
    obtain ⟨hb, hs⟩ := getElem_end pre j cs t ht'
    constructor
    · rw [advance, ho]
      simp only [Option.bind_eq_bind, Option.bind_some, hb, hs, if_true]
    · rw [peekAt, ho]
      simp only [Option.bind_eq_bind, Option.bind_some]
      rw [drop_text, List.drop_eq_nil_of_le ht']
      have := ((utf8_round_trip 0 j).1 (by decide)).2.1
      rwa [encode_eq (by decide), enc_zero] at this

example : advance ([0x7A] ++ text [0x61, 0xE9, 0x20AC] ++ 0#8 :: []) 4 (-1) = some (some 2, 2) :=
  (((advance_partial [0x7A] [] [0x61, 0xE9, 0x20AC] (by decide) 2 (by decide) (-1) (by decide) (by decide)).1 1
    (by decide) (by decide)).1 : _)

/-- C128, refutation: moving back past the first character of a text that begins its object always
leaves the object. -/
theorem advance_before_start (j : List Byte) (cs : List Nat) (h : Text cs) (i : Nat) (hi : i < cs.length) (k : Int)
    (hk : k < -(i : Int)) :
    advance (text cs ++ 0#8 :: j) (text (cs.take i)).length k = none := by
  rw [advance]
  by_cases hr : k ≤ -2 ^ 63
  · have : offset (text cs ++ 0#8 :: j) (text (cs.take i)).length k = none ∨ k < -2 ^ 63 := by
      by_cases e : k = -2 ^ 63
      · left; subst e; rw [offset, if_pos (by decide)]; rfl
      · right; omega
    rcases this with h1 | h1
    · rw [h1]; rfl
    · -- not an `isize`; the loop still runs out of the object
      obtain ⟨b, hb, hb0, _⟩ := getElem_text [] j cs h i hi
      have h0 : 0#8 ∉ text (cs.take i) := text_no_nul (Text.take h i)
      have hcnt := countP_text (cs.take i) (Text.take h i)
      rw [List.length_take, Nat.min_eq_left (by omega)] at hcnt
      have ht := take_text [] j cs i
      simp only [List.nil_append, List.length_nil, Nat.zero_add] at hb ht
      rw [offset, if_pos (by omega), guard_pos (by omega), hb, ht]
      simp only [Option.bind_eq_bind, Option.bind_some]
      rw [offB_eq _ _ _ hb0 (by simpa using h0), if_neg (by rw [List.countP_reverse, hcnt]; omega)]
      rfl
  · have := (offset_bwd [] j cs h i k.natAbs hi (by omega) (by omega)).2 rfl (by omega)
    simp only [List.nil_append, List.length_nil, Nat.zero_add] at this
    rw [show -(k.natAbs : Int) = k by omega] at this
    rw [this]; rfl

/-- C128, refutation: in a zero-terminated view of the tail of a string, moving back goes on into the
bytes before the view: from 'c' of the view "c" of "abc", two back is 'a'. -/
theorem advance_leaves_view :
    fromPos 4 0 3 2 = some (2, 1) ∧ advance [0x61, 0x62, 0x63, 0#8] 2 (-2) = some (some 0, 1) := by decide

/-! ### C129 -/

/-- C129 (partial: position not negative). The rest of a zero-terminated view from a byte position:
clamped to the end; still ending at the terminator. -/
theorem from_pos_partial (pre s j : List Byte) (pos : Nat) :
    ∃ o n : Nat, fromPos (pre ++ s ++ 0#8 :: j).length pre.length s.length pos = some (o, (n : Int)) ∧
      (pre ++ s ++ 0#8 :: j).drop o = s.drop pos ++ 0#8 :: j ∧ n = (s.drop pos).length := by
  have hmin : (if (pos : Int) > s.length then (s.length : Int) else pos) = (min pos s.length : Nat) := by
    split <;> omega
  refine ⟨pre.length + min pos s.length, s.length - min pos s.length, ?_, ?_, ?_⟩
  · simp only [fromPos, hmin]
    rw [if_pos (by simp only [List.length_append, List.length_cons]; omega)]
    congr 2; omega
  · rw [List.append_assoc, ← List.drop_drop, List.drop_left, List.drop_append_of_le_length (by omega)]
    congr 1
    by_cases h : pos ≤ s.length
    · rw [Nat.min_eq_left h]
    · rw [Nat.min_eq_right (by omega), List.drop_eq_nil_of_le (by omega), List.drop_eq_nil_of_le (by omega)]
  · rw [List.length_drop]; omega

example : fromPos 6 1 4 2 = some (3, 2) := by decide

/-- C129, refutation: a negative position is not rejected: the "rest" of a view begins before it and
is longer than the view, or leaves the object. -/
theorem from_pos_negative (total base : Nat) (size pos : Int) (h : pos < 0) (hs : 0 ≤ size) (hb : base ≤ total) :
    (0 ≤ base + pos → ∃ o n, fromPos total base size pos = some (o, n) ∧ o < base ∧ size < n) ∧
    (base + pos < 0 → fromPos total base size pos = none) := by
  constructor
  · intro h0
    refine ⟨(base + pos).toNat, size - pos, ?_, by omega, by omega⟩
    simp only [fromPos, if_neg (show ¬ pos > size by omega)]
    rw [if_pos (by omega)]
  · intro h0
    simp only [fromPos, if_neg (show ¬ pos > size by omega)]
    rw [if_neg (by omega)]

/-- C129. By code points: the rest of a text from position `pos`, and the character at a position. -/
theorem u8_from_pos (pre j : List Byte) (cs : List Nat) (h : Text cs) (pos : Nat) :
    (∃ o n : Nat, u8FromPos (pre ++ text cs ++ 0#8 :: j) pre.length (text cs).length pos = some (o, (n : Int)) ∧
      (pre ++ text cs ++ 0#8 :: j).drop o = text (cs.drop pos) ++ 0#8 :: j ∧ n = (text (cs.drop pos)).length) ∧
    (∀ hp : pos < cs.length,
      u8At (text cs ++ 0#8 :: j) pos = some ((text (cs.take pos)).length, (enc cs[pos]).length)) := by
  constructor
  · obtain ⟨o, n, e, h1, h2⟩ := from_pos_partial pre (text cs) j (text (cs.take pos)).length
    have hd : (text cs).drop (text (cs.take pos)).length = text (cs.drop pos) := by
      rw [text_take_drop cs pos, List.drop_left]
    refine ⟨o, n, ?_, by rw [h1, hd], by rw [h2, hd]⟩
    rw [u8FromPos, List.append_assoc, List.drop_left, toIndex, at_text j cs h]
    rw [List.append_assoc] at e
    exact e
  · intro hp
    have hs := (getElem_text [] j cs h pos hp)
    obtain ⟨_, _, _, hs⟩ := hs
    simp only [List.nil_append, List.length_nil, Nat.zero_add] at hs
    rw [u8At, at_text j cs h]
    simp only [Option.bind_eq_bind, Option.bind_some, hs]
    rw [guard_pos (by have := List.length_pos_iff.2 (enc_ne_nil cs[pos]); omega)]; rfl

example : u8At ([0x61, 0xE2, 0x82, 0xAC] ++ 0#8 :: []) 1 = some (1, 3) := by decide

/-- C129, refutation: the character at a position past the end is not rejected (the assertion on its
size never fails): it is the terminator, with size 1. -/
theorem u8_at_past_end (j : List Byte) (cs : List Nat) (h : Text cs) (pos : Nat) (hp : cs.length ≤ pos) :
    u8At (text cs ++ 0#8 :: j) pos = some ((text cs).length, 1) := by
  obtain ⟨_, hs⟩ := getElem_end [] j cs pos hp
  rw [List.take_of_length_le hp] at hs
  simp only [List.nil_append, List.length_nil, Nat.zero_add] at hs
  rw [u8At, at_text j cs h, List.take_of_length_le hp]
  simp only [Option.bind_eq_bind, Option.bind_some, hs]
  rfl

end Verif.Zstr
