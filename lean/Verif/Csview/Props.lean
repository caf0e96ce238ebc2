import Verif.Csview.Lemmas
import Verif.Csview.Spec
/- C39 (search), C46 (case-insensitive prefix), C47 (trim), C48 (tokens), C49 (sub-views), C43 (views),
C79 (UTF-8 iteration), C80 (string order), C81 (case-insensitive equality and suffix), C67 (views). -/
namespace Verif.Csview
open Verif.Utf8 Verif.Utf8.Spec Spec

/-! ### C39 -/

/-- C39. Searching a view for another view: the leftmost occurrence, or NPOS when there is none;
nothing outside the two views is read, whatever surrounds them (`j`, `j2`). -/
theorem find_leftmost (s nd j j2 : List Byte) (hs : s.length < NPOS) :
    ∃ r, findSv (s ++ j) s.length (nd ++ j2) nd.length = some r ∧
      ((r = NPOS ∧ ∀ i ≤ s.length, ¬ At nd s i) ∨
       (r + nd.length ≤ s.length ∧ At nd s r ∧ ∀ i < r, ¬ At nd s i)) := by
  obtain ⟨r, e, h1, h2⟩ := strnstrn_spec s nd j j2
  cases r with
  | none => exact ⟨NPOS, by rw [findSv, e]; rfl, Or.inl ⟨rfl, h1 rfl⟩⟩
  | some i => exact ⟨i, by rw [findSv, e]; rfl, Or.inr (h2 i rfl)⟩

example : findSv ([1, 2, 1, 2, 3] ++ [9]) 5 ([2, 3] ++ [7#8]) 2 = some 3 := by decide

theorem infix_iff {nd s : List Byte} : nd <:+: s ↔ ∃ i ≤ s.length, At nd s i := by
  constructor
  · rintro ⟨a, b, rfl⟩
    exact ⟨a.length, by simp, by simp [At]⟩
  · rintro ⟨i, _, h⟩
    exact h.isInfix.trans (List.drop_suffix _ _).isInfix

/-- C39 for C-string arguments: `starts_with`, `ends_with` and `contains` decide prefix, suffix and
infix. -/
theorem prefix_suffix_infix (s c j j2 : List Byte) (h0 : 0#8 ∉ c) (hs : s.length < NPOS) :
    startsWith (s ++ j) s.length (c ++ 0#8 :: j2) = some (decide (c <+: s)) ∧
    endsWith (s ++ j) s.length (c ++ 0#8 :: j2) = some (decide (c <:+ s)) ∧
    contains (s ++ j) s.length (c ++ 0#8 :: j2) = some (decide (c <:+: s)) := by
  refine ⟨?_, ?_, ?_⟩
  · rw [startsWith, strlen_eq j2 c h0]
    simp only [Option.bind_eq_bind, Option.bind_some]
    by_cases h : c.length ≤ s.length
    · rw [if_pos h, memcmp_eq (by simp; omega) (by simp), List.take_append_of_le_length h, List.take_left]
      congr 1; rw [decide_eq_decide, prefix_iff_take]
      exact ⟨fun e => ⟨h, e⟩, fun e => e.2⟩
    · rw [if_neg h]
      congr 1; symm; rw [decide_eq_false_iff_not]
      intro hp; exact h hp.length_le
  · rw [endsWith, strlen_eq j2 c h0]
    simp only [Option.bind_eq_bind, Option.bind_some]
    by_cases h : c.length ≤ s.length
    · have hl : (s.drop (s.length - c.length)).length = c.length := by simp; omega
      have e : (s.drop (s.length - c.length) ++ j).take c.length = s.drop (s.length - c.length) := by
        rw [List.take_append_of_le_length (by omega), List.take_of_length_le (by omega)]
      rw [if_pos h, memcmp_eq (by simp; omega) (by simp), List.drop_append_of_le_length (by omega),
        List.take_left, e]
      congr 1; rw [decide_eq_decide, List.suffix_iff_eq_drop]
      exact ⟨fun e => e.symm, fun e => e.symm⟩
    · rw [if_neg h]
      congr 1; symm; rw [decide_eq_false_iff_not]
      intro hp; exact h hp.length_le
  · obtain ⟨r, e, h⟩ := find_leftmost s c j (0#8 :: j2) hs
    rw [contains, find, strlen_eq j2 c h0]
    simp only [Option.bind_eq_bind, Option.bind_some, e, Option.map_some]
    congr 1
    rw [Bool.eq_iff_iff, decide_eq_true_iff, bne_iff_ne, infix_iff]
    rcases h with ⟨hr, h⟩ | ⟨h1, h2, _⟩
    · subst hr
      simp only [ne_eq, not_true_eq_false, false_iff, not_exists, not_and]
      exact h
    · exact ⟨fun _ => ⟨r, by omega, h2⟩, fun _ => by omega⟩

example : contains ([1, 2, 3] ++ []) 3 ([2, 3] ++ 0#8 :: [5]) = some true := by
  exact (prefix_suffix_infix [1, 2, 3] [2, 3] [] [5] (by decide) (by decide)).2.2.trans (by decide)

/-! ### C80 -/

/-- C80. Equality of views decides equality of their bytes; the three-way comparison is the
lexicographic order of the unsigned bytes (hence a total order, by `lex_antisymm`, `lex_trans`),
and is zero exactly on equal views. -/
theorem view_order (s t j1 j2 : List Byte) :
    eqSv (s ++ j1) s.length (t ++ j2) t.length = some (decide (s = t)) ∧
    ∃ r, cmpSv (s ++ j1) s.length (t ++ j2) t.length = some r ∧
      r.sign = lex (s.map (·.toNat)) (t.map (·.toNat)) ∧ (r = 0 ↔ s = t) := by
  have key : ∃ r, cmpSv (s ++ j1) s.length (t ++ j2) t.length = some r ∧
      r.sign = lex (s.map (·.toNat)) (t.map (·.toNat)) := by
    have hpre : ∀ (a b : List Byte), a.length ≤ b.length →
        lex (a.map (·.toNat)) (b.map (·.toNat)) =
          if lex (a.map (·.toNat)) ((b.take a.length).map (·.toNat)) ≠ 0 then
            lex (a.map (·.toNat)) ((b.take a.length).map (·.toNat))
          else if a.length < b.length then -1 else 0 := by
      intro a
      induction a with
      | nil => intro b _; cases b <;> simp [lex]
      | cons x a ih =>
        intro b h
        cases b with
        | nil => simp at h
        | cons y b =>
          simp only [List.map_cons, lex, List.length_cons, List.take_succ_cons]
          by_cases h1 : x.toNat < y.toNat
          · rw [if_pos h1, if_pos h1, if_pos (by decide)]
          · by_cases h2 : y.toNat < x.toNat
            · rw [if_neg h1, if_pos h2, if_neg h1, if_pos h2, if_pos (by decide)]
            · rw [if_neg h1, if_neg h2, if_neg h1, if_neg h2, ih b (by simpa using h)]
              simp
    have hm : ∀ n, n ≤ s.length → n ≤ t.length →
        memcmp (s ++ j1) (t ++ j2) n = some (memcmpLoop (s.take n) (t.take n)) := by
      intro n h1 h2
      rw [memcmp, if_pos ⟨by simp; omega, by simp; omega⟩, List.take_append_of_le_length h1,
        List.take_append_of_le_length h2]
    by_cases h : s.length < t.length
    · have hc := memcmpLoop_sign s (t.take s.length) (by simp; omega)
      refine ⟨_, by rw [cmpSv, if_pos h, hm _ (Nat.le_refl _) (by omega)]; rfl, ?_⟩
      rw [List.take_length, hpre s t (Nat.le_of_lt h), ← hc]
      by_cases h0 : memcmpLoop s (t.take s.length) = 0
      · simp only [h0, ne_eq, not_true_eq_false, if_false, Int.sign_zero, if_pos h, show ¬ s.length > t.length by omega]; rfl
      · rw [if_pos h0, if_pos (by simpa [Int.sign_eq_zero_iff_zero] using h0)]
    · have hc := memcmpLoop_sign (s.take t.length) t (by simp; omega)
      refine ⟨_, by rw [cmpSv, if_neg h, hm _ (by omega) (Nat.le_refl _)]; rfl, ?_⟩
      rw [List.take_length, lex_antisymm, hpre t s (by omega), lex_antisymm (t.map _), ← hc]
      by_cases h0 : memcmpLoop (s.take t.length) t = 0
      · simp only [h0, ne_eq, not_true_eq_false, if_false, Int.sign_zero, Int.neg_zero]
        by_cases h1 : t.length < s.length
        · rw [if_pos h1, if_neg h, if_pos h1]; rfl
        · rw [if_neg h1, if_neg h, if_neg h1]; rfl
      · rw [if_pos h0, if_pos (by simpa [Int.sign_eq_zero_iff_zero] using h0), Int.neg_neg]
  refine ⟨?_, ?_⟩
  · rw [eqSv]
    by_cases h : s.length = t.length
    · rw [if_pos h, memcmp_eq (by simp) (by simp; omega), List.take_left, h, List.take_left]
    · rw [if_neg h]; congr 1; symm; rw [decide_eq_false_iff_not]; intro e; exact h (by rw [e])
  · obtain ⟨r, e, hs⟩ := key
    refine ⟨r, e, hs, ?_⟩
    rw [← Int.sign_eq_zero_iff_zero, hs, lex_zero]
    exact ⟨map_toNat_inj, fun e => by rw [e]⟩

example : ∃ r, cmpSv ([0xC3, 0xA9] ++ []) 2 ([0x7A, 0x7A] ++ []) 2 = some r ∧ r.sign = 1 := by
  obtain ⟨_, r, e, h, _⟩ := view_order [0xC3, 0xA9] [0x7A, 0x7A] [] []
  exact ⟨r, e, by rw [h]; decide⟩

/-- C80 for NUL-terminated strings (zsview, cstr). -/
theorem string_order (s t j1 j2 : List Byte) (hs : 0#8 ∉ s) (ht : 0#8 ∉ t) :
    ∃ r, strcmp (s ++ 0#8 :: j1) (t ++ 0#8 :: j2) = some r ∧
      r.sign = lex (s.map (·.toNat)) (t.map (·.toNat)) ∧ (r = 0 ↔ s = t) := by
  obtain ⟨r, e, h⟩ := strcmp_spec j1 j2 s t hs ht
  refine ⟨r, e, h, ?_⟩
  rw [← Int.sign_eq_zero_iff_zero, h, lex_zero]
  exact ⟨map_toNat_inj, fun e => by rw [e]⟩

example : strcmp ([1, 2] ++ [0#8]) ([1, 3] ++ [0#8]) = some (-1) := by decide

/-! ### C47 -/

theorem blank_unsigned (b : Byte) : blank false b = true ↔ ctl b := by simp [blank, ctl]

theorem toInt_tab : ∀ n < 256, ((BitVec.ofNat 8 n).toInt ≤ 32 ↔ n ≤ 32 ∨ 128 ≤ n) := by decide +kernel

theorem blank_signed (b : Byte) : blank true b = true ↔ ctl b ∨ 0x80 ≤ b.toNat := by
  have := toInt_tab b.toNat b.isLt
  simp only [BitVec.ofNat_toNat, BitVec.setWidth_eq] at this
  simp [blank, ctl, this]

/-- The maximal-run form of trimming, for whatever bytes count as blank. -/
theorem trim_runs (signed : Bool) (s j : List Byte) :
    ∃ o n, trim signed (s ++ j) s.length = some (o, n) ∧ o + n ≤ s.length ∧
      (∀ b ∈ s.take o, blank signed b = true) ∧ (∀ b ∈ s.drop (o + n), blank signed b = true) ∧
      (n ≠ 0 → (∃ b, s[o]? = some b ∧ blank signed b = false) ∧
        ∃ b, s[o + n - 1]? = some b ∧ blank signed b = false) := by
  have hsplit : s.takeWhile (blank signed) ++ s.dropWhile (blank signed) = s := List.takeWhile_append_dropWhile
  have hlen := congrArg List.length hsplit
  simp only [List.length_append] at hlen
  generalize ht : s.takeWhile (blank signed) = t at *
  generalize hd : s.dropWhile (blank signed) = d at *
  have hdrop : (s ++ j).drop t.length = d ++ j := by rw [← hsplit, List.append_assoc, List.drop_left]
  obtain ⟨k, e, hk, h1, h2⟩ := trimEnd_spec signed (d ++ j) d.length (by simp)
  have hget : ∀ i, i < d.length → (d ++ j)[i]? = s[t.length + i]? := by
    intro i hi
    rw [← hsplit, List.getElem?_append_left hi, List.getElem?_append_right (by omega)]
    congr 1; omega
  refine ⟨t.length, k, ?_, by omega, ?_, ?_, ?_⟩
  · rw [trim, trimStart_spec, ht, hd]
    simp only [Option.bind_eq_bind, Option.bind_some, hdrop, e]
  · intro b hb
    rw [← hsplit, List.take_left, ← ht] at hb
    exact List.mem_takeWhile_imp hb
  · intro b hb
    obtain ⟨i, hi, rfl⟩ := List.mem_iff_getElem.1 hb
    simp only [List.length_drop] at hi
    obtain ⟨b', e1, e2⟩ := h1 (k + i) (by omega) (by omega)
    rw [hget _ (by omega)] at e1
    rw [List.getElem_drop]
    have : s[t.length + k + i]? = some b' := by rw [← e1]; congr 1; omega
    rw [List.getElem?_eq_getElem (by omega)] at this
    simp only [Option.some.injEq] at this
    rw [this]; exact e2
  · intro hk0
    constructor
    · have hdne : d ≠ [] := by rintro rfl; simp at hk; omega
      cases d with
      | nil => exact absurd rfl hdne
      | cons b d =>
        have := List.head?_dropWhile_not (blank signed) s
        rw [hd] at this
        simp only [List.head?_cons] at this
        refine ⟨b, ?_, by simpa using this⟩
        have := hget 0 (by simp)
        simpa using this.symm
    · obtain ⟨b, e1, e2⟩ := h2 hk0
      rw [hget _ (by omega)] at e1
      refine ⟨b, ?_, e2⟩
      rw [← e1]; congr 1; omega

/-- C47 (partial: `char` is unsigned, or the view holds ASCII bytes only). Trimming returns the
part of the view between the maximal leading and trailing runs of bytes 0 to 0x20. -/
theorem trim_partial (signed : Bool) (s j : List Byte) (h : signed = false ∨ ∀ b ∈ s, b.toNat < 0x80) :
    ∃ o n, trim signed (s ++ j) s.length = some (o, n) ∧ o + n ≤ s.length ∧
      (∀ b ∈ s.take o, ctl b) ∧ (∀ b ∈ s.drop (o + n), ctl b) ∧
      (n ≠ 0 → (∃ b, s[o]? = some b ∧ ¬ ctl b) ∧ ∃ b, s[o + n - 1]? = some b ∧ ¬ ctl b) := by
  have key : ∀ b ∈ s, (blank signed b = true ↔ ctl b) := by
    intro b hb
    cases signed
    · exact blank_unsigned b
    · rcases h with h | h
      · cases h
      · rw [blank_signed]; have := h b hb
        exact ⟨fun h => h.elim id (fun h => by omega), Or.inl⟩
  obtain ⟨o, n, e, hl, h1, h2, h3⟩ := trim_runs signed s j
  have hm : ∀ i b, s[i]? = some b → b ∈ s := fun i b h => List.mem_of_getElem? h
  refine ⟨o, n, e, hl, fun b hb => (key b (List.mem_of_mem_take hb)).1 (h1 b hb),
    fun b hb => (key b (List.mem_of_mem_drop hb)).1 (h2 b hb), fun hn => ?_⟩
  obtain ⟨⟨b, e1, e2⟩, b', e1', e2'⟩ := h3 hn
  refine ⟨⟨b, e1, ?_⟩, b', e1', ?_⟩
  · rw [← key b (hm _ _ e1), e2]; simp
  · rw [← key b' (hm _ _ e1'), e2']; simp

example : trim true ([32, 9, 0x61, 32, 0x62, 10] ++ [0x63]) 6 = some (2, 3) := by decide

/-- C47, refutation on platforms with signed `char`: any text of bytes from 0x80 up, such as "é",
is trimmed away completely. -/
theorem trim_signed_loses_text (s j : List Byte) (h : ∀ b ∈ s, 0x80 ≤ b.toNat) :
    trim true (s ++ j) s.length = some (s.length, 0) := by
  have hall : ∀ b ∈ s, blank true b = true := fun b hb => (blank_signed b).2 (Or.inr (h b hb))
  have e1 : s.takeWhile (blank true) = s := List.takeWhile_eq_self_iff.2 hall
  have e2 : s.dropWhile (blank true) = [] := List.dropWhile_eq_nil_iff.2 hall
  rw [trim, trimStart_spec, e1, e2]
  rfl

example : trim true (enc 0xE9 ++ []) 2 = some (2, 0) :=
  trim_signed_loses_text (enc 0xE9) [] (by decide)

/-! ### C49 -/

theorem toU_nonneg {x : Int} (h : 0 ≤ x) (h' : x < 2 ^ 63) : toU x = x.toNat := by
  rw [toU, Int.emod_eq_of_lt h (by omega)]

theorem toU_neg {x : Int} (h : x < 0) (h' : -2 ^ 63 ≤ x) : 2 ^ 63 ≤ toU x := by
  rw [toU]
  have : x % 2 ^ 64 = x + 2 ^ 64 := by
    rw [← Int.add_emod_right, Int.emod_eq_of_lt (by omega) (by omega)]
  rw [this]; omega

/-- C49 (partial: `pos + len` does not overflow). `subview` of a view of `size` bytes: exactly the
arguments with `0 ≤ pos ≤ size` and `0 ≤ len` pass, and the result is the bytes from `pos`, at most
`len` of them, clipped to the view. -/
theorem subview_partial (size pos len : Int) (hs : 0 ≤ size ∧ size < 2 ^ 63) (hp : inI pos) (hl : inI len)
    (ho : inI (pos + len)) :
    (0 ≤ pos ∧ pos ≤ size ∧ 0 ≤ len → subview size pos len = some (pos, min len (size - pos))) ∧
    (¬ (0 ≤ pos ∧ pos ≤ size ∧ 0 ≤ len) → subview size pos len = none) := by
  simp only [inI] at hp hl
  constructor
  · rintro ⟨h1, h2, h3⟩
    have e1 := toU_nonneg h1 hp.2
    have e2 := toU_nonneg hs.1 hs.2
    rw [subview, guard_pos (by omega), guard_pos ho]
    simp only [Option.bind_eq_bind, Option.bind_some]
    congr 2; split <;> omega
  · intro h
    rw [subview]
    have : ¬ (toU pos ≤ toU size ∧ len ≥ 0) := by
      rintro ⟨h1, h2⟩
      rw [toU_nonneg hs.1 hs.2] at h1
      by_cases hp0 : pos < 0
      · have := toU_neg hp0 hp.1; omega
      · rw [toU_nonneg (by omega) hp.2] at h1; omega
    rw [guard_neg this]; rfl

example : subview 5 3 4 = some (3, 2) := by decide

/-- C49, refutation: asking for everything from `pos` on with the library's own "no position"
constant overflows (signed overflow, undefined) for every `pos > 0`. -/
theorem subview_npos_overflow (size pos : Int) (hs : 0 ≤ size ∧ size < 2 ^ 63) (hp : 0 < pos ∧ pos ≤ size) :
    subview size pos NPOS = none ∧ subviewPro size pos NPOS = none := by
  have h : ¬ inI (pos + NPOS) := by simp only [inI, NPOS]; omega
  have hpro : proPos size pos = pos := by
    simp only [proPos]; rw [if_neg (by omega), if_neg (by omega)]
  constructor
  · rw [subview]
    by_cases hg : toU pos ≤ toU size ∧ (NPOS : Int) ≥ 0
    · rw [guard_pos hg, guard_neg h]; rfl
    · rw [guard_neg hg]; rfl
  · rw [subviewPro, hpro, guard_neg h]; rfl

example : subview 5 1 NPOS = none := (subview_npos_overflow 5 1 (by decide) (by decide)).1

/-- C49 for `slice`, `tail` (views and NUL-terminated) and `subview_pro`, for all arguments in their
documented domain. -/
theorem subviews_in_base (size : Int) (hs : 0 ≤ size ∧ size < 2 ^ 63) :
    (∀ p1 p2, 0 ≤ p1 → p1 ≤ p2 → p1 ≤ size → p2 < 2 ^ 63 → slice size p1 p2 = some (p1, min p2 size - p1)) ∧
    (∀ len, 0 ≤ len → len ≤ size → tail size len = some (size - len, len)) ∧
    (∀ len, 0 ≤ len → ztail size len = some (size - min len size, min len size)) ∧
    (∀ pos len, inI pos → 0 ≤ len → len ≤ 2 ^ 63 - 1 - size →
      ∃ o n, subviewPro size pos len = some (o, n) ∧
        o = (if pos < 0 then max 0 (size + pos) else min pos size) ∧ n = min len (size - o) ∧
        0 ≤ o ∧ 0 ≤ n ∧ o + n ≤ size) := by
  refine ⟨fun p1 p2 h1 h2 h3 h4 => ?_, fun len h1 h2 => ?_, fun len h1 => ?_, fun pos len hp h1 h2 => ?_⟩
  · have e1 := toU_nonneg h1 (by omega : p1 < 2 ^ 63)
    have e2 := toU_nonneg (by omega : 0 ≤ p2) h4
    have e3 := toU_nonneg hs.1 hs.2
    rw [slice, guard_pos (by omega)]
    simp only [Option.bind_eq_bind, Option.bind_some]
    congr 2; split <;> omega
  · rw [tail, guard_pos (by simp only [inI]; omega)]
    simp only [Option.bind_eq_bind, Option.bind_some]
    rw [(subview_partial size (size - len) len hs (by simp only [inI]; omega) (by simp only [inI]; omega)
      (by simp only [inI]; omega)).1 (by omega)]
    congr 2; omega
  · rw [ztail, guard_pos (by omega)]
    simp only [Option.bind_eq_bind, Option.bind_some]
    congr 2 <;> split <;> omega
  · have hpro : proPos size pos = (if pos < 0 then max 0 (size + pos) else min pos size) := by
      simp only [proPos]; split <;> (repeat' split) <;> omega
    have hb : 0 ≤ proPos size pos ∧ proPos size pos ≤ size := by rw [hpro]; split <;> omega
    refine ⟨proPos size pos, min len (size - proPos size pos), ?_, hpro, rfl, by omega, by omega, by omega⟩
    rw [subviewPro, guard_pos (by simp only [inI]; omega)]
    simp only [Option.bind_eq_bind, Option.bind_some]
    congr 2; split <;> omega

example : subviewPro 5 (-3) 10 = some (2, 3) := by decide

/-- C49, finding: `slice` lets a negative end position through (the check compares unsigned
values) and returns a view of negative size. -/
theorem slice_negative_end (size p2 : Int) (hs : 0 ≤ size ∧ size < 2 ^ 63) (hp : -2 ^ 63 ≤ p2 ∧ p2 < 0) :
    slice size 0 p2 = some (0, p2) := by
  have e1 := toU_nonneg (Int.le_refl 0) (by decide)
  rw [slice, guard_pos (by rw [e1]; exact ⟨by simp, by simp⟩)]
  simp only [Option.bind_eq_bind, Option.bind_some]
  rw [if_neg (by omega), Int.sub_zero]

example : slice 5 0 (-1) = some (0, -1) := slice_negative_end 5 (-1) (by decide) (by decide)

/-! ### C48 -/

theorem tokens_spec (s sep j j2 : List Byte) (h0 : 0#8 ∉ sep) (hne : sep ≠ []) :
    ∀ (f pos : Nat), pos ≤ s.length → s.length + 1 - pos < f →
    ∃ ts, tokens (s ++ j) s.length (sep ++ 0#8 :: j2) f pos = some ts ∧ ts ≠ [] ∧
      join sep (ts.map (part s)) = s.drop pos ∧
      (∀ t ∈ ts, t.1 + t.2 ≤ s.length) ∧
      (∀ t ∈ ts, ¬ sep <:+: part s t) ∧
      (∀ t ∈ ts.dropLast, ∀ i < t.2, ¬ At sep (part s t ++ sep) i) := by
  intro f
  have hpos := List.length_pos_iff.2 hne
  induction f with
  | zero => intro pos _ h; omega
  | succ f ih =>
    intro pos hp hf
    have hlen : (s.drop pos).length = s.length - pos := by simp
    obtain ⟨r, e, h1, h2⟩ := strnstrn_spec (s.drop pos) sep j (0#8 :: j2)
    rw [hlen] at e
    have htok : token (s ++ j) s.length (sep ++ 0#8 :: j2) pos =
        some ((pos, r.getD (s.length - pos)), pos + r.getD (s.length - pos) + sep.length) := by
      rw [token, strlen_eq j2 sep h0, List.drop_append_of_le_length hp]
      simp only [Option.bind_eq_bind, Option.bind_some, e]
    rw [tokens, if_pos hp, htok]
    simp only [Option.bind_eq_bind, Option.bind_some]
    cases r with
    | none =>
      have hstop : tokens (s ++ j) s.length (sep ++ 0#8 :: j2) f (pos + (s.length - pos) + sep.length) = some [] := by
        match f, hf with
        | f + 1, hf => rw [tokens, if_neg (by omega)]
        | 0, hf => omega
      have hsl : part s (pos, s.length - pos) = s.drop pos := by
        rw [part]; exact List.take_of_length_le (by simp)
      refine ⟨[(pos, s.length - pos)], by simp only [Option.getD_none]; rw [hstop]; rfl, by simp, ?_, ?_, ?_, by simp⟩
      · simp [join, hsl]
      · intro t ht; simp only [List.mem_singleton] at ht; subst ht; simp only; omega
      · intro t ht; simp only [List.mem_singleton] at ht; subst ht
        rw [hsl, infix_iff]
        rintro ⟨i, hi, ha⟩
        exact h1 rfl i hi ha
    | some i =>
      obtain ⟨hi, ha, hleft⟩ := h2 i rfl
      obtain ⟨ts, e1, hts, h3, h4, h5, h6⟩ := ih (pos + i + sep.length) (by omega) (by omega)
      have hsl : part s (pos, i) = (s.drop pos).take i := rfl
      have hsplit : s.drop pos = (s.drop pos).take i ++ sep ++ s.drop (pos + i + sep.length) := by
        have e2 : (s.drop pos).drop i = sep ++ s.drop (pos + i + sep.length) := by
          obtain ⟨t, ht⟩ := ha
          rw [← ht]
          congr 1
          have := congrArg (List.drop sep.length) ht
          rw [List.drop_left, List.drop_drop, List.drop_drop] at this
          rw [this]; congr 1; omega
        conv_lhs => rw [← List.take_append_drop i (s.drop pos), e2]
        rw [List.append_assoc]
      have hnone : ∀ i' < i, ¬ At sep ((s.drop pos).take i ++ sep) i' := by
        intro i' hi' hc
        apply hleft i' hi'
        have hdl : i' ≤ ((s.drop pos).take i ++ sep).length := by simp; omega
        rw [hsplit, List.drop_append_of_le_length hdl]
        exact hc.trans (List.prefix_append _ _)
      refine ⟨(pos, i) :: ts, by simp only [Option.getD_some]; rw [e1]; rfl, by simp, ?_, ?_, ?_, ?_⟩
      · cases ts with
        | nil => exact absurd rfl hts
        | cons t ts =>
          rw [List.map_cons, hsl, List.map_cons, join, ← List.map_cons (f := part s), h3, ← hsplit]
          simp
      · intro t ht
        rcases List.mem_cons.1 ht with rfl | ht
        · simp only; omega
        · exact h4 t ht
      · intro t ht
        rcases List.mem_cons.1 ht with rfl | ht
        · rw [hsl, infix_iff]
          rintro ⟨i', hi', hc⟩
          have hcl := hc.length_le
          have hl' : ((s.drop pos).take i).length ≤ i := by simp; omega
          simp only [List.length_drop] at hcl
          refine hnone i' (by omega) ?_
          rw [At, List.drop_append_of_le_length hi']
          exact hc.trans (List.prefix_append _ _)
        · exact h5 t ht
      · intro t ht
        cases ts with
        | nil => exact absurd rfl hts
        | cons t' ts =>
          rw [List.dropLast_cons_cons] at ht
          rcases List.mem_cons.1 ht with rfl | ht
          · exact hnone
          · exact h6 t ht

/-- C48. Splitting a view at a non-empty separator: the loop ends, every token lies in the view and
contains no separator, joining the tokens with the separator gives back the view, and each
separator removed is the first one after the previous token. -/
theorem tokens_lossless (s sep j j2 : List Byte) (h0 : 0#8 ∉ sep) (hne : sep ≠ []) :
    ∃ ts, tokens (s ++ j) s.length (sep ++ 0#8 :: j2) (s.length + 2) 0 = some ts ∧ ts ≠ [] ∧
      join sep (ts.map (part s)) = s ∧
      (∀ t ∈ ts, t.1 + t.2 ≤ s.length) ∧
      (∀ t ∈ ts, ¬ sep <:+: part s t) ∧
      (∀ t ∈ ts.dropLast, ∀ i < t.2, ¬ At sep (part s t ++ sep) i) := by
  have := tokens_spec s sep j j2 h0 hne (s.length + 2) 0 (by omega) (by omega)
  simpa using this

example : tokens ([1, 44, 2, 44, 44, 3] ++ [44]) 6 ([44] ++ [0#8]) 8 0 = some [(0, 1), (2, 1), (4, 0), (5, 1)] := by
  decide

/-- C48, finding: with an empty separator the loop never ends, whatever the input. -/
theorem tokens_empty_separator (s j j2 : List Byte) : ∀ f, tokens (s ++ j) s.length (0#8 :: j2) f 0 = none := by
  intro f
  induction f with
  | zero => rfl
  | succ f ih =>
    rw [tokens, if_pos (by omega)]
    have : token (s ++ j) s.length (0#8 :: j2) 0 = some ((0, 0), 0) := by
      simp [token, strlen, strnstrn]
    rw [this]
    simp only [Option.bind_eq_bind, Option.bind_some, ih]
    rfl

/-! ### C43 for views -/

theorem text_take_drop (cs : List Nat) (i : Nat) : text cs = text (cs.take i) ++ text (cs.drop i) := by
  simp only [text, ← List.flatMap_append, List.take_append_drop]

/-- C43 (partial: a lead byte, e.g. a NUL, follows the view in the same object). Sub-views and
characters of a view by code point position. -/
theorem u8_subview_partial (cs : List Nat) (h : Text cs) (b : Byte) (junk : List Byte) (hb : lead b = true)
    (pos len : Nat) :
    (∃ o n, u8Subview (text cs ++ b :: junk) (text cs).length pos len = some (o, n) ∧
      part (text cs) (o, n) = text ((cs.drop pos).take len)) ∧
    (∀ hp : pos < cs.length, ∃ o n, u8At (text cs ++ b :: junk) (text cs).length pos = some (o, n) ∧
      part (text cs) (o, n) = enc cs[pos]) := by
  have hF : Follow (b :: junk) := ⟨b, junk, rfl, hb⟩
  have hd : Text (cs.drop pos) := fun c hc => h c (List.mem_of_mem_drop hc)
  have hs := text_take_drop cs pos
  have hl : (text cs).length - (text (cs.take pos)).length = (text (cs.drop pos)).length := by
    rw [hs, List.length_append]; omega
  have hdrop : (text cs ++ b :: junk).drop (text (cs.take pos)).length = text (cs.drop pos) ++ b :: junk := by
    rw [hs, List.append_assoc, List.drop_left]
  constructor
  · refine ⟨(text (cs.take pos)).length, (text ((cs.drop pos).take len)).length, ?_, ?_⟩
    · rw [u8Subview, fwd_text hF cs h pos]
      simp only [Option.bind_eq_bind, Option.bind_some, hl, hdrop]
      rw [fwd_text hF _ hd]; rfl
    · rw [part]
      simp only
      rw [hs, List.drop_left, text_take_drop (cs.drop pos) len, List.take_left]
  · intro hp
    have hcons : cs.drop pos = cs[pos] :: cs.drop (pos + 1) := List.drop_eq_getElem_cons hp
    have hc := h cs[pos] (List.getElem_mem _)
    refine ⟨(text (cs.take pos)).length, (enc cs[pos]).length, ?_, ?_⟩
    · rw [u8At, fwd_text hF cs h pos]
      simp only [Option.bind_eq_bind, Option.bind_some, hdrop]
      rw [hcons, text_cons, List.append_assoc, chrSize_enc hc]
      simp only [Option.bind_some]
      have hne : (text (cs.take pos)).length ≠ (text cs).length := by
        have := List.length_pos_iff.2 (enc_ne_nil cs[pos])
        rw [hcons, text_cons, List.length_append] at hl
        omega
      rw [guard_pos hne]; rfl
    · rw [part]
      simp only
      rw [hs, List.drop_left, hcons, text_cons, List.take_left]

example : u8At ([0x61, 0xE2, 0x82, 0xAC] ++ [0#8]) 4 1 = some (1, 3) := by decide

/-- C43. The trailing `n` code points of a view (no byte outside the view is read). -/
theorem u8_tail (cs : List Nat) (h : Text cs) (junk : List Byte) (n : Nat) :
    ∃ o k, u8Tail (text cs ++ junk) (text cs).length n = some (o, k) ∧
      part (text cs) (o, k) = text (cs.drop (cs.length - n)) := by
  have e := bwd_text cs.reverse (by simpa using h) n
  rw [List.reverse_reverse, List.take_reverse, List.reverse_reverse] at e
  have hs := text_take_drop cs (cs.length - n)
  have hl := congrArg List.length hs
  rw [List.length_append] at hl
  refine ⟨(text cs).length - (text (cs.drop (cs.length - n))).length, (text (cs.drop (cs.length - n))).length, ?_, ?_⟩
  · rw [u8Tail, guard_pos (by simp)]
    simp only [Option.bind_eq_bind, Option.bind_some, List.take_left, e]
  · rw [part]
    simp only
    rw [show (text cs).length - (text (cs.drop (cs.length - n))).length = (text (cs.take (cs.length - n))).length by omega,
      hs, List.drop_left, List.take_of_length_le (Nat.le_refl _)]

example : u8Tail (text [0x61, 0xE9, 0x20AC] ++ []) 6 2 = some (1, 5) := by decide

/-! ### C79 -/

/-- C79 (partial: non-empty string; for views, some byte follows the view in its object).
Iterating visits exactly the characters of the text, in order: views first, then NUL-terminated
strings. -/
theorem u8_iterate_partial (c : Nat) (cs : List Nat) (h : Text (c :: cs)) (b : Byte) (junk : List Byte) (fuel : Nat)
    (hf : cs.length < fuel) :
    (∃ l, each (text (c :: cs) ++ b :: junk) (text (c :: cs)).length fuel = some l ∧
      l.map (part (text (c :: cs))) = (c :: cs).map enc) ∧
    (∃ l, zeach (text (c :: cs) ++ 0#8 :: junk) fuel = some l ∧
      l.map (part (text (c :: cs))) = (c :: cs).map enc) := by
  have hb : ∀ R, begin (text (c :: cs) ++ R) = some (some 0, (enc c).length) := by
    intro R
    rw [begin, text_cons, List.append_assoc, chrSize_enc h.head]; rfl
  have hsl := chars_slices (text (c :: cs)) [] (c :: cs) 0 (by simp)
  refine ⟨⟨chars 0 (c :: cs), ?_, hsl⟩, chars 0 (c :: cs), ?_, hsl⟩
  · rw [each, hb]
    have := each_text (text (c :: cs) ++ b :: junk) b junk cs c 0 fuel h rfl hf
    rw [Nat.zero_add] at this
    exact this
  · rw [zeach, hb]
    exact zeach_text (text (c :: cs) ++ 0#8 :: junk) junk cs c 0 fuel h rfl hf

example : zeach ([0x61, 0xC3, 0xA9] ++ [0#8]) 5 = some [(0, 1), (1, 2)] := by decide

/-- C79, refutation: iterating an empty NUL-terminated string does not stop before the first
character: the loop runs on past the terminator (here into the next bytes of the object). -/
theorem u8_iterate_empty : zeach [0#8, 0x61#8, 0#8] 5 = some [(0, 1), (1, 1)] ∧ zeach [0#8] 5 = none := by
  decide

/-- C79, refutation: iterating an empty view never reaches its end; it runs until it reads outside
the object. -/
theorem u8_iterate_empty_view (m : List Byte) (fuel : Nat) : each m 0 fuel = none := by
  have key : ∀ (f p k : Nat), 0 < k → eachFrom (next m 0) f (some p, k) = none := by
    intro f
    induction f with
    | zero => intro p k _; rfl
    | succ f ih =>
      intro p k hk
      rw [eachFrom, next]
      cases hc : chrSize (m.drop (p + k)) with
      | none => rfl
      | some k' =>
        have : 0 < k' := by
          simp only [chrSize] at hc
          cases hd : (m.drop (p + k)).head? with
          | none => rw [hd] at hc; simp at hc
          | some x =>
            rw [hd] at hc
            simp only [Option.bind_eq_bind, Option.bind_some] at hc
            split at hc
            · simp at hc; omega
            · split at hc
              · simp at hc; omega
              · split at hc <;> (simp at hc; omega)
        simp only [Option.bind_eq_bind, Option.bind_some]
        rw [if_neg (by omega), ih _ _ this]; rfl
  rw [each, begin]
  cases hc : chrSize m with
  | none => rfl
  | some k' =>
    have : 0 < k' := by
      simp only [chrSize] at hc
      cases hd : m.head? with
      | none => rw [hd] at hc; simp at hc
      | some x =>
        rw [hd] at hc
        simp only [Option.bind_eq_bind, Option.bind_some] at hc
        split at hc
        · simp at hc; omega
        · split at hc
          · simp at hc; omega
          · split at hc <;> (simp at hc; omega)
    simp only [Option.bind_eq_bind, Option.bind_some]
    exact key _ _ _ this

/-- C79, refutation: iterating a view that ends where its object ends reads one byte past it. -/
theorem u8_iterate_overread : each [0x61#8] 1 5 = none := by decide

/-! ### C46, C81 -/

/-- no NUL in the encoding of a text. -/
theorem text_no_nul {cs : List Nat} (h : Text cs) : 0#8 ∉ text cs := by
  simp only [text, List.mem_flatMap, not_exists, not_and]
  intro c hc h0
  obtain ⟨b, tl, e, hb, _, ht, _⟩ := enc_shape (h c hc).1 (h c hc).2
  rw [e] at h0
  rcases List.mem_cons.1 h0 with h0 | h0
  · exact hb h0.symm
  · exact (ht _ h0).1 rfl

/-- C46 (partial: one direction, for views of length-stable code points shorter than 2 GiB).
`istarts_with` of a view is true only if the folded prefix starts the folded view; in fact it is
true exactly when the whole strings agree after folding. -/
theorem istarts_with_view_partial (cs p : List Nat) (j1 j2 : List Byte) (hc : Good cs) (hp : Good p) :
    ∃ r, istartsWith (text cs ++ j1) (text cs).length (text p ++ 0#8 :: j2) = some r ∧
      (r = true ↔ cs.map casefold = p.map casefold) ∧
      (r = true → p.map casefold <+: cs.map casefold) := by
  have hr : ∃ r, istartsWith (text cs ++ j1) (text cs).length (text p ++ 0#8 :: j2) = some r ∧
      (r = true ↔ cs.map casefold = p.map casefold) := by
    obtain ⟨r, e, hs⟩ := icmp_view_partial cs p j1 (0#8 :: j2) hc.1 hp.1 hc.2.1 hp.2.1 hc.2.2 hp.2.2
    rw [istartsWith, strlen_eq j2 _ (text_no_nul hp.1)]
    simp only [Option.bind_eq_bind, Option.bind_some]
    have hz : r = 0 ↔ cs.map casefold = p.map casefold := by
      rw [← lex_zero, ← hs, Int.sign_eq_zero_iff_zero]
    by_cases hl : (text p).length ≤ (text cs).length
    · rw [if_pos hl, e]
      exact ⟨r == 0, rfl, by rw [beq_iff_eq, hz]⟩
    · rw [if_neg hl]
      refine ⟨false, rfl, by simp, fun heq => ?_⟩
      exfalso
      apply hl
      have key : ∀ a : List Nat, (∀ c ∈ a, Stable c) → (text a).length = (text (a.map casefold)).length := by
        intro a
        induction a with
        | nil => intro _; rfl
        | cons c a ih =>
          intro h
          rw [List.map_cons, text_cons, text_cons, List.length_append, List.length_append, h c (by simp),
            ih (fun x hx => h x (by simp [hx]))]
      rw [key p hp.2.1, key cs hc.2.1, heq]
  obtain ⟨r, e, h⟩ := hr
  exact ⟨r, e, h, fun ht => by rw [h.1 ht]; exact List.prefix_refl _⟩

example : ∃ r, istartsWith (text [0x41, 0xC9] ++ []) 3 (text [0x61, 0xE9] ++ [0#8]) = some r ∧ r = true := by
  obtain ⟨r, e, h, _⟩ := istarts_with_view_partial [0x41, 0xC9] [0x61, 0xE9] [] []
    ⟨by decide, by decide +kernel, by decide⟩ ⟨by decide, by decide +kernel, by decide⟩
  exact ⟨r, e, h.2 (by decide +kernel)⟩

/-- C46 (partial: one direction) for NUL-terminated strings, all texts: true exactly when the whole
strings agree after folding and the prefix is not longer in bytes. -/
theorem istarts_with_string_partial (cs p : List Nat) (j1 j2 : List Byte) (hc : Text cs) (hp : Text p)
    (l1 : (text cs).length < 2 ^ 63 - 1) (l2 : (text p).length < 2 ^ 63 - 1) :
    ∃ r, zistartsWith (text cs ++ 0#8 :: j1) (text cs).length (text p ++ 0#8 :: j2) = some r ∧
      (r = true ↔ (text p).length ≤ (text cs).length ∧ cs.map casefold = p.map casefold) ∧
      (r = true → p.map casefold <+: cs.map casefold) := by
  obtain ⟨r, e, hz, _⟩ := icmp_string_partial cs p j1 j2 hc hp l1 l2
  rw [zistartsWith, strlen_eq j2 _ (text_no_nul hp)]
  simp only [Option.bind_eq_bind, Option.bind_some]
  by_cases hl : (text p).length ≤ (text cs).length
  · rw [if_pos hl, e]
    refine ⟨r == 0, rfl, by rw [beq_iff_eq, hz]; exact ⟨fun h => ⟨hl, h⟩, fun h => h.2⟩, fun h => ?_⟩
    rw [beq_iff_eq, hz] at h; rw [h]; exact List.prefix_refl _
  · rw [if_neg hl]
    exact ⟨false, rfl, by simp; omega, by simp⟩

example : zistartsWith (text [0x212A] ++ [0#8]) 3 (text [0x6B] ++ [0#8]) = some true := by decide +kernel

/-- C46, refutation: "hello" is not recognised as starting with "hel", by views and by
NUL-terminated strings alike. -/
theorem istarts_with_incomplete :
    [0x68, 0x65, 0x6C] <+: [0x68, 0x65, 0x6C, 0x6C, 0x6F] ∧
    istartsWith (text [0x68, 0x65, 0x6C, 0x6C, 0x6F]) 5 (text [0x68, 0x65, 0x6C] ++ [0#8]) = some false ∧
    zistartsWith (text [0x68, 0x65, 0x6C, 0x6C, 0x6F] ++ [0#8]) 5 (text [0x68, 0x65, 0x6C] ++ [0#8]) = some false := by
  decide +kernel

/-- C46, refutation: the view U+212A is reported to start with "kab", and (C81) to be equal to it
ignoring case: the comparison stops when either view is used up and compares only byte sizes. -/
theorem icompare_false_equal :
    istartsWith (text [0x212A]) 3 (text [0x6B, 0x61, 0x62] ++ [0#8]) = some true ∧
    iequalsSv (text [0x212A]) 3 (text [0x6B, 0x61, 0x62]) 3 = some true ∧
    [0x212A].map casefold ≠ [0x6B, 0x61, 0x62].map casefold := by
  decide +kernel

/-- C81 (partial: length-stable code points, views shorter than 2 GiB). Case-insensitive equality of
views decides equality of the folded texts. -/
theorem iequals_partial (a b : List Nat) (j1 j2 : List Byte) (ha : Good a) (hb : Good b) :
    ∃ r, iequalsSv (text a ++ j1) (text a).length (text b ++ j2) (text b).length = some r ∧
      (r = true ↔ a.map casefold = b.map casefold) := by
  obtain ⟨r, e, hs⟩ := icmp_view_partial a b j1 j2 ha.1 hb.1 ha.2.1 hb.2.1 ha.2.2 hb.2.2
  have hz : r = 0 ↔ a.map casefold = b.map casefold := by rw [← lex_zero, ← hs, Int.sign_eq_zero_iff_zero]
  rw [iequalsSv]
  by_cases hl : (text a).length = (text b).length
  · rw [if_pos hl, e]
    exact ⟨r == 0, rfl, by rw [beq_iff_eq, hz]⟩
  · rw [if_neg hl]
    refine ⟨false, rfl, by simp, fun heq => ?_⟩
    exfalso
    apply hl
    have key : ∀ a : List Nat, (∀ c ∈ a, Stable c) → (text a).length = (text (a.map casefold)).length := by
      intro a
      induction a with
      | nil => intro _; rfl
      | cons c a ih =>
        intro h
        rw [List.map_cons, text_cons, text_cons, List.length_append, List.length_append, h c (by simp),
          ih (fun x hx => h x (by simp [hx]))]
    rw [key a ha.2.1, key b hb.2.1, heq]

example : ∃ r, iequalsSv (text [0x416] ++ [1#8]) 2 (text [0x436] ++ []) 2 = some r ∧ r = true := by
  obtain ⟨r, e, h⟩ := iequals_partial [0x416] [0x436] [1#8] [] ⟨by decide, by decide +kernel, by decide⟩
    ⟨by decide, by decide +kernel, by decide⟩
  exact ⟨r, e, h.2 (by decide +kernel)⟩

/-- C81 (partial: NUL-terminated string, suffix of the same byte length starting at a character).
The case-insensitive suffix test decides whether that suffix folds to the folded argument. -/
theorem iends_with_partial (a b p : List Nat) (j1 j2 : List Byte) (hb : Text b) (hp : Text p)
    (hl : (text b).length = (text p).length) (l2 : (text p).length < 2 ^ 63 - 1) :
    ∃ r, iendsWith (text (a ++ b) ++ 0#8 :: j1) (text (a ++ b)).length (text p ++ 0#8 :: j2) = some r ∧
      (r = true ↔ b.map casefold = p.map casefold) := by
  have ht : text (a ++ b) = text a ++ text b := by simp [text]
  obtain ⟨r, e, hz, _⟩ := icmp_string_partial b p j1 j2 hb hp (by omega) l2
  rw [iendsWith, strlen_eq j2 _ (text_no_nul hp), ht]
  simp only [Option.bind_eq_bind, Option.bind_some, List.length_append]
  rw [if_pos (by omega), show (text a).length + (text b).length - (text p).length = (text a).length by omega,
    List.append_assoc, List.drop_left, e]
  exact ⟨r == 0, rfl, by rw [beq_iff_eq, hz]⟩

example : iendsWith (text [0x61, 0x42, 0xC9] ++ [0#8]) 4 (text [0x62, 0xE9] ++ [0#8]) = some true := by
  decide +kernel

/-- C81, refutation: the suffix test of a view looks past the end of the view: "abc" inside "abcd" is
not found to end with "bc". -/
theorem iends_with_view_wrong :
    iendsWith (text [0x61, 0x62, 0x63, 0x64] ++ [0#8]) 3 (text [0x62, 0x63] ++ [0#8]) = some false := by
  decide +kernel

/-! ### C67 -/

/-- C67. The hash of a string is a function of its bytes only: it is the same whatever follows them
in memory, whether the string is given as a view, a NUL-terminated view (same code) or a C
string, and only the bytes of the string are read. -/
theorem hash_by_content (s : List Byte) :
    ∃ h, (∀ j, basehash (s ++ j) s.length = some h) ∧
      (0#8 ∉ s → ∀ j, hashStr (s ++ 0#8 :: j) = some h) := by
  obtain ⟨h, hh⟩ := hashLoop_local (s.length + 1) s 0#64 0x811c9dc5#64 (by omega)
  refine ⟨h, fun j => hh j, fun h0 j => ?_⟩
  rw [hashStr, strlen_eq j s h0]
  exact hh _

example : basehash ([1, 2, 3, 4, 5, 6, 7, 8, 9] ++ [7#8]) 9 = basehash [1, 2, 3, 4, 5, 6, 7, 8, 9] 9 := by
  obtain ⟨h, hh, _⟩ := hash_by_content [1, 2, 3, 4, 5, 6, 7, 8, 9]
  have := hh []
  rw [List.append_nil] at this
  exact (hh [7#8]).trans this.symm

end Verif.Csview
