import Verif.Utf8.Icmp
/- C41 (round trip), C42 (validation), C43 (counting and indexing), C44 (progress of decoding),
C45 (case-insensitive order), C78 (case mapping). -/
namespace Verif.Utf8
open Spec

/-! ### C41 -/

/-- C41. Encoding a Unicode scalar value gives its UTF-8 form, decoding that form (whatever
follows it in memory) gives the scalar back with the same length, by all three decoders: the one
shot `utf8_peek`, the range decoder, and the length computed from the first byte alone. Any other
32-bit value encodes to nothing. -/
theorem utf8_round_trip (c : Nat) (m : List Byte) :
    (Scalar c → encode c = enc c ∧ peek (encode c ++ m) = some c ∧
      (∀ avail, (encode c).length ≤ avail → decodeCp (encode c ++ m) avail = some (c, (encode c).length)) ∧
      (c ≠ 0 → chrSize (encode c ++ m) = some (encode c).length)) ∧
    (¬ Scalar c → encode c = []) := by
  refine ⟨fun h => ?_, encode_none⟩
  rw [encode_eq h]
  refine ⟨rfl, ?_, fun a ha => decodeCp_enc h m ha, fun h0 => ?_⟩
  · rw [peek, peek_chain m _ _ ((chain_iff _).2 ⟨h, rfl⟩)]; rfl
  · obtain ⟨b, tl, e, _, _, _, _, h6⟩ := enc_shape h h0
    rw [← h6, e]; rfl

example : peek (encode 0x20AC ++ [0x41#8]) = some 0x20AC :=
  ((utf8_round_trip 0x20AC [0x41#8]).1 (by decide)).2.1

/-- C41, injectivity: distinct texts have distinct encodings. -/
theorem text_injective : ∀ cs cs' : List Nat, Text cs → Text cs' → text cs = text cs' → cs = cs' := by
  intro cs
  induction cs with
  | nil =>
    intro cs' _ _ e
    cases cs' with
    | nil => rfl
    | cons c cs' =>
      have := congrArg List.length e
      have h2 := text_length_pos (c := c) (cs := cs')
      simp only [text, List.flatMap_nil, List.length_nil] at this h2
      omega
  | cons c cs ih =>
    intro cs' h h' e
    cases cs' with
    | nil =>
      have := congrArg List.length e
      have h2 := text_length_pos (c := c) (cs := cs)
      simp only [text, List.flatMap_nil, List.length_nil] at this h2
      omega
    | cons c' cs' =>
      rw [text_cons, text_cons] at e
      have e1 := decodeCp_enc h.head.1 (text cs) (avail := 4) (enc_le_four c)
      have e2 := decodeCp_enc h'.head.1 (text cs') (avail := 4) (enc_le_four c')
      rw [e, e2] at e1
      have hc : c' = c := by simpa using congrArg (fun x : Option (Nat × Nat) => x.map Prod.fst) e1
      subst hc
      rw [ih cs' h.tail h'.tail (List.append_cancel_left e)]

/-! ### C42 -/

/-- C42. Validation of `n` readable bytes accepts exactly when the bytes before the first NUL (all
of them when there is none) are the concatenation of the UTF-8 forms of non-zero scalar values. -/
theorem utf8_valid_n_exact (m : List Byte) (n : Nat) (hn : n ≤ m.length) :
    ∃ r, validN m n = some r ∧
      (r = true ↔ ∃ cs, Text cs ∧ (m.take n).takeWhile (· != 0#8) = text cs) := by
  obtain ⟨r, e, h⟩ := validN_spec n m ⟨0, 0⟩ (Or.inl rfl) hn
  refine ⟨r, e, h.trans ⟨?_, ?_⟩⟩
  · rintro (⟨_, h⟩ | ⟨bs, c, cs, h1, h2, h3⟩)
    · exact ⟨[], by simp [Text], by rw [h]; rfl⟩
    · obtain ⟨hs, rfl⟩ := (chain_iff _).1 h1
      refine ⟨c :: cs, ?_, by rw [h3, text_cons]⟩
      intro x hx
      rcases List.mem_cons.1 hx with rfl | hx
      · refine ⟨hs, ?_⟩
        rintro rfl
        have : (0#8) ∈ (m.take n).takeWhile (· != 0#8) := by rw [h3, enc_zero]; simp
        have := List.mem_takeWhile_imp this
        simp at this
      · exact h2 x hx
  · rintro ⟨cs, h1, h2⟩
    cases cs with
    | nil => exact Or.inl ⟨rfl, h2⟩
    | cons c cs => exact Or.inr ⟨enc c, c, cs, (chain_iff _).2 ⟨h1.head.1, rfl⟩, h1.tail, h2⟩

/-- C42 for NUL-terminated strings. -/
theorem utf8_valid_exact (s junk : List Byte) (h0 : 0#8 ∉ s) :
    ∃ r, valid (s ++ 0#8 :: junk) = some r ∧ (r = true ↔ ∃ cs, Text cs ∧ s = text cs) := by
  obtain ⟨r, e, h⟩ := utf8_valid_n_exact (s ++ 0#8 :: junk) (s ++ 0#8 :: junk).length (Nat.le_refl _)
  refine ⟨r, by rw [valid, validLoop_eq _ _ (by simp)]; exact e, ?_⟩
  rw [h, List.take_of_length_le (Nat.le_refl _), List.takeWhile_append_of_pos]
  · simp
  · intro a ha; simp only [bne_iff_ne, ne_eq]; rintro rfl; exact h0 ha

example : valid [0x61#8, 0xC3#8, 0xA9#8, 0#8] = some true ∧ valid [0x61#8, 0xC0#8, 0x80#8, 0#8] = some false := by
  obtain ⟨r, e, h⟩ := utf8_valid_exact [0x61#8, 0xC3#8, 0xA9#8] [] (by decide)
  refine ⟨?_, rfl⟩
  have : r = true := h.2 ⟨[0x61, 0xE9], by decide, by decide⟩
  rw [this] at e; exact e

/-! ### C43 -/

/-- C43. For every NUL-terminated text: the count is the number of code points, the byte index of
code point position `i` is the length of the encoding of the first `i` code points, and a subview
by code point position and length is the encoding of exactly those code points. -/
theorem utf8_count_index (cs : List Nat) (h : Text cs) (junk : List Byte) (i len : Nat) :
    count (text cs ++ 0#8 :: junk) = some cs.length ∧
    toIndex (text cs ++ 0#8 :: junk) i = some (text (cs.take i)).length ∧
    (∃ off n, subview (text cs ++ 0#8 :: junk) i len = some (off, n) ∧
      ((text cs ++ 0#8 :: junk).drop off).take n = text ((cs.drop i).take len)) := by
  refine ⟨count_text junk cs h, at_text junk cs h i, ?_⟩
  have e : (text cs ++ 0#8 :: junk).drop (text (cs.take i)).length = text (cs.drop i) ++ 0#8 :: junk := by
    have : text cs = text (cs.take i) ++ text (cs.drop i) := by
      simp only [text, ← List.flatMap_append, List.take_append_drop]
    rw [this, List.append_assoc, List.drop_left]
  have hd : Text (cs.drop i) := fun c hc => h c (List.mem_of_mem_drop hc)
  refine ⟨(text (cs.take i)).length, (text ((cs.drop i).take len)).length, ?_, ?_⟩
  · simp only [subview, at_text junk cs h i, Option.bind_eq_bind, Option.bind_some, e, at_text junk _ hd]
  · rw [e]
    have : text (cs.drop i) = text ((cs.drop i).take len) ++ text ((cs.drop i).drop len) := by
      simp only [text, ← List.flatMap_append, List.take_append_drop]
    rw [this, List.append_assoc, List.take_left]

example : toIndex (text [0x61, 0xE9, 0x20AC] ++ [0#8]) 2 = some 3 :=
  (utf8_count_index [0x61, 0xE9, 0x20AC] (by decide) [] 2 0).2.1

/-- C43 (partial: a lead byte, such as a terminating NUL, follows the counted bytes in the same
object). Counting within a given number of bytes. -/
theorem utf8_count_n_partial (cs : List Nat) (h : Text cs) (b : Byte) (junk : List Byte) (hb : lead b = true) :
    countN (text cs).length (text cs ++ b :: junk) = some cs.length :=
  countN_text ⟨b, junk, rfl, hb⟩ cs h

example : countN 3 ([0xE2#8, 0x82#8, 0xAC#8] ++ [0x41#8]) = some 1 :=
  utf8_count_n_partial [0x20AC] (by decide) 0x41#8 [] (by decide)

/-- C43, refutation: counting the bytes of a view that ends where its object ends always reads one
byte past the object. -/
theorem utf8_count_n_overread (cs : List Nat) (h : Text cs) : countN (text cs).length (text cs) = none := by
  refine countN_end _ _ (Nat.le_refl _) ?_
  simp only [text, List.mem_flatMap, not_exists, not_and]
  intro c hc h0
  obtain ⟨b, tl, e, hb, _, ht, _⟩ := enc_shape (h c hc).1 (h c hc).2
  rw [e] at h0
  rcases List.mem_cons.1 h0 with h0 | h0
  · exact hb h0.symm
  · exact (ht _ h0).1 rfl

example : countN 2 [0xC3#8, 0xA9#8] = none := utf8_count_n_overread [0xE9] (by decide)

/-! ### C44 -/

/-- C44. Decoding the front of any non-empty range of bytes, valid or not, is defined, reads only
inside the range, consumes at least one byte and no more than there are, and returns the scalar
whose UTF-8 form starts the range if there is one, and otherwise U+FFFD. -/
theorem utf8_decode_progress (m : List Byte) (avail : Nat) (h1 : 0 < avail) (h2 : avail ≤ m.length) :
    ∃ c k, decodeCp m avail = some (c, k) ∧ 1 ≤ k ∧ k ≤ avail ∧
      ((Scalar c ∧ k = (enc c).length ∧ enc c <+: m.take avail) ∨
       (c = 0xFFFD ∧ ∀ c', Scalar c' → ¬ enc c' <+: m.take avail)) := by
  by_cases hex : ∃ c, Scalar c ∧ enc c <+: m.take avail
  · obtain ⟨c, hs, hp⟩ := hex
    have hl : (enc c).length ≤ avail := by have := hp.length_le; simp at this; omega
    obtain ⟨t, ht⟩ := hp.trans (List.take_prefix _ _)
    refine ⟨c, (enc c).length, ?_, List.length_pos_iff.2 (enc_ne_nil c), hl, Or.inl ⟨hs, rfl, hp⟩⟩
    rw [← ht]; exact decodeCp_enc hs t hl
  · obtain ⟨r, n, e, b1, b2, h⟩ := dcp_total m ⟨0, 0⟩ 0 (Or.inl rfl) h1 (by omega)
    refine ⟨r.codep, n, by simp [decodeCp, e], b1, b2, Or.inr ⟨?_, fun c hc hp => hex ⟨c, hc, hp⟩⟩⟩
    rcases h with ⟨bs, hch, hn, hp⟩ | h
    · obtain ⟨hs, rfl⟩ := (chain_iff _).1 hch
      refine absurd ⟨_, hs, ?_⟩ hex
      exact List.prefix_take_iff.2 ⟨hp, by omega⟩
    · exact h

example : decodeCp [0xE2#8, 0x82#8] 2 = some (0xFFFD, 1) := by decide +kernel

/-- C44: scanning a buffer ends for every byte string, and on a text yields exactly the code
points. -/
theorem utf8_decode_all : ∀ (f : Nat) (m : List Byte), m.length ≤ f → ∃ cs, decodeAll f m = some cs ∧
    cs.length ≤ m.length ∧ ∀ cs', Text cs' → m = text cs' → cs = cs' := by
  intro f
  induction f with
  | zero =>
    intro m hm
    have : m = [] := List.length_eq_zero_iff.1 (by omega)
    subst this
    refine ⟨[], rfl, by simp, fun cs' ht e => ?_⟩
    cases cs' with
    | nil => rfl
    | cons c cs => have := congrArg List.length e; have := text_length_pos (c := c) (cs := cs); simp at *; omega
  | succ f ih =>
    intro m hm
    cases m with
    | nil =>
      refine ⟨[], rfl, by simp, fun cs' ht e => ?_⟩
      cases cs' with
      | nil => rfl
      | cons c cs => have := congrArg List.length e; have := text_length_pos (c := c) (cs := cs); simp at *; omega
    | cons b m =>
      obtain ⟨c, k, e, k1, k2, _⟩ := utf8_decode_progress (b :: m) (m.length + 1) (by omega) (by simp)
      obtain ⟨cs, e', hl, hcs⟩ := ih ((b :: m).drop k) (by
        rw [List.length_drop, List.length_cons]; rw [List.length_cons] at hm; omega)
      refine ⟨c :: cs, by rw [decodeAll, e]; simp only [Option.bind_eq_bind, Option.bind_some, e'], ?_, ?_⟩
      · rw [List.length_drop, List.length_cons] at hl; rw [List.length_cons, List.length_cons]; omega
      · intro cs' ht hm'
        cases cs' with
        | nil => simp [text] at hm'
        | cons c' cs' =>
          have hd := decodeCp_enc ht.head.1 (text cs') (avail := m.length + 1) (by
            have := congrArg List.length hm'
            rw [text_cons, List.length_append, List.length_cons] at this; omega)
          rw [text_cons] at hm'
          rw [← hm', e] at hd
          simp only [Option.some.injEq, Prod.mk.injEq] at hd
          obtain ⟨rfl, rfl⟩ := hd
          rw [hcs cs' ht.tail (by rw [hm', drop_enc])]

example : decodeAll 3 [0xE2#8, 0x82#8, 0xAC#8] = some [0x20AC] := by
  obtain ⟨cs, e, _, h⟩ := utf8_decode_all 3 [0xE2#8, 0x82#8, 0xAC#8] (by decide)
  rw [e, h [0x20AC] (by decide) (by decide)]

/-! ### C45 -/

/-- C45 (partial: code points whose case-folded form has the same encoded length, and views
shorter than 2 GiB). The case-insensitive comparison of two views is the lexicographic comparison
of the folded code points, whatever follows the views in memory. -/
theorem icmp_view_partial (cs1 cs2 : List Nat) (j1 j2 : List Byte) (t1 : Text cs1) (t2 : Text cs2)
    (s1 : ∀ c ∈ cs1, Stable c) (s2 : ∀ c ∈ cs2, Stable c)
    (l1 : (text cs1).length < 2 ^ 31) (l2 : (text cs2).length < 2 ^ 31) :
    ∃ r, icompare (text cs1 ++ j1) (text cs1).length (text cs2 ++ j2) (text cs2).length = some r ∧
      r.sign = lex (cs1.map casefold) (cs2.map casefold) := by
  refine icmp_view j1 j2 cs1 cs2 _ _ t1 t2 s1 s2 rfl (by omega) (by omega) ?_
  have := length_le_text cs1
  rw [List.length_append]; omega

example : icompare (text [0x41, 0xC9] ++ [7#8]) 3 (text [0x61, 0xEA] ++ []) 3 = some (-1) := by decide +kernel

/-- the views of C45 whose comparison is an order: stable texts shorter than 2 GiB. -/
def Good (cs : List Nat) : Prop := Text cs ∧ (∀ c ∈ cs, Stable c) ∧ (text cs).length < 2 ^ 31

/-- C45 (partial, as above): on those views the comparison is defined and is a total preorder:
antisymmetric, transitive, and zero exactly when the folded texts agree. -/
theorem icmp_view_order_partial (a b c : List Nat) (ha : Good a) (hb : Good b) (hc : Good c) :
    ∃ x y z w, csviewIcmp (text a) (text b) = some x ∧ csviewIcmp (text b) (text a) = some y ∧ csviewIcmp (text b) (text c) = some z ∧ csviewIcmp (text a) (text c) = some w ∧
      (x < 0 ↔ 0 < y) ∧ (x = 0 ↔ a.map casefold = b.map casefold) ∧ (x ≤ 0 → z ≤ 0 → w ≤ 0) := by
  have key : ∀ p q, Good p → Good q → ∃ r, csviewIcmp (text p) (text q) = some r ∧ r.sign = lex (p.map casefold) (q.map casefold) := by
    intro p q hp hq
    have := icmp_view_partial p q [] [] hp.1 hq.1 hp.2.1 hq.2.1 hp.2.2 hq.2.2
    simpa only [List.append_nil, csviewIcmp] using this
  obtain ⟨x, ex, sx⟩ := key a b ha hb
  obtain ⟨y, ey, sy⟩ := key b a hb ha
  obtain ⟨z, ez, sz⟩ := key b c hb hc
  obtain ⟨w, ew, sw⟩ := key a c ha hc
  refine ⟨x, y, z, w, ex, ey, ez, ew, ?_, ?_, ?_⟩
  · have h := lex_antisymm (a.map casefold) (b.map casefold)
    rw [← sx, ← sy] at h
    rw [← Int.sign_eq_neg_one_iff_neg, ← Int.sign_eq_one_iff_pos]; omega
  · rw [← lex_zero, ← sx, Int.sign_eq_zero_iff_zero]
  · intro hx hz
    have hn : ∀ v : Int, v ≤ 0 ↔ v.sign ≤ 0 := fun v => by
      rcases Int.lt_trichotomy v 0 with h | h | h
      · rw [Int.sign_eq_neg_one_of_neg h]; omega
      · rw [h]; decide
      · rw [Int.sign_eq_one_of_pos h]; omega
    rw [hn, sx] at hx
    rw [hn, sz] at hz
    rw [hn, sw]
    exact lex_trans _ _ _ hx hz

example : Good [0x41, 0xC9, 0x416] := by
  refine ⟨by decide, by decide +kernel, by decide⟩

/-- C45, refutation for views: with the Kelvin sign (U+212A, folding to `k`) the comparison has a
cycle: K < "kaaa" < "kb" < K. -/
theorem icmp_view_cycle : ∃ a b c : List Nat, Text a ∧ Text b ∧ Text c ∧
    (∃ x, csviewIcmp (text a) (text b) = some x ∧ x < 0) ∧ (∃ x, csviewIcmp (text b) (text c) = some x ∧ x < 0) ∧
    (∃ x, csviewIcmp (text c) (text a) = some x ∧ x < 0) :=
  ⟨[0x212A], [0x6B, 0x61, 0x61, 0x61], [0x6B, 0x62], by decide, by decide, by decide,
    ⟨-1, by decide +kernel⟩, ⟨-1, by decide +kernel⟩, ⟨-1, by decide +kernel⟩⟩

/-- C45, refutation: two views with the same folded text compare unequal. -/
theorem icmp_view_fold_equal_differs : ∃ a b : List Nat, Text a ∧ Text b ∧
    a.map casefold = b.map casefold ∧ ∃ x, csviewIcmp (text a) (text b) = some x ∧ x ≠ 0 :=
  ⟨[0x212A], [0x6B], by decide, by decide, by decide +kernel, 2, by decide +kernel⟩

/-- C45 for NUL-terminated strings: the result is zero exactly when the folded texts agree (all
texts); and (partial: if the first string goes on where the second ends, it goes on with an ASCII
character) its sign is the lexicographic comparison of the folded texts. -/
theorem icmp_string_partial (cs1 cs2 : List Nat) (j1 j2 : List Byte) (t1 : Text cs1) (t2 : Text cs2)
    (l1 : (text cs1).length < 2 ^ 63 - 1) (l2 : (text cs2).length < 2 ^ 63 - 1) :
    ∃ r, icmp (text cs1 ++ 0#8 :: j1) (text cs2 ++ 0#8 :: j2) = some r ∧
      (r = 0 ↔ cs1.map casefold = cs2.map casefold) ∧
      ((∀ c, cs1[cs2.length]? = some c → c < 0x80) → r.sign = lex (cs1.map casefold) (cs2.map casefold)) := by
  refine icmp_nul j1 j2 _ cs1 cs2 _ _ _ t1 t2 (by omega) (by omega) ?_
  have := length_le_text cs1
  rw [List.length_append]; omega

example : ∃ r, icmp (text [0x212A, 0x41] ++ [0#8]) (text [0x6B, 0x61] ++ [0#8]) = some r ∧ r = 0 := by
  obtain ⟨r, e, h, _⟩ := icmp_string_partial [0x212A, 0x41] [0x6B, 0x61] [] [] (by decide) (by decide)
    (by decide) (by decide)
  exact ⟨r, e, h.2 (by decide +kernel)⟩

/-- C45, refutation for NUL-terminated strings: `"aé"` and `"a"` are each less than the other. -/
theorem icmp_string_not_antisymmetric : ∃ a b : List Nat, Text a ∧ Text b ∧
    (∃ x, icmp (text a ++ [0#8]) (text b ++ [0#8]) = some x ∧ x < 0) ∧
    (∃ x, icmp (text b ++ [0#8]) (text a ++ [0#8]) = some x ∧ x < 0) :=
  ⟨[0x61, 0xE9], [0x61], by decide, by decide, ⟨-61, by decide +kernel⟩, ⟨-233, by decide +kernel⟩⟩

/-! ### C78 -/

/-- C78. Case mapping of every code point: all three functions are idempotent, change only code
points below U+10000, map scalars to non-zero scalars when they change them, and lower- or
upper-casing does not change the folded form (except for U+0130 and U+0131, where the tables
disagree); the encoded form grows at most by half. -/
theorem case_mapping (c : Nat) :
    (casefold (casefold c) = casefold c ∧ (0x10000 ≤ c → casefold c = c) ∧
      (Scalar c → Scalar (casefold c)) ∧ (c ≠ 0 → casefold c ≠ 0)) ∧
    (tolower (tolower c) = tolower c ∧ (0x10000 ≤ c → tolower c = c) ∧
      (Scalar c → Scalar (tolower c)) ∧ (c ≠ 0 → tolower c ≠ 0) ∧
      (c ≠ 0x130 → casefold (tolower c) = casefold c) ∧
      2 * (enc (tolower c)).length ≤ 3 * (enc c).length) ∧
    (toupper (toupper c) = toupper c ∧ (0x10000 ≤ c → toupper c = c) ∧
      (Scalar c → Scalar (toupper c)) ∧ (c ≠ 0 → toupper c ≠ 0) ∧
      (c ≠ 0x131 → casefold (toupper c) = casefold c) ∧
      2 * (enc (toupper c)).length ≤ 3 * (enc c).length) := by
  refine ⟨?_, ?_, ?_⟩
  · rcases casefold_facts c with h | ⟨h1, h2, h3, h4⟩
    · simp [h]
    · exact ⟨h1, fun _ => by omega, fun _ => h2, fun _ => h3⟩
  · rcases tolower_facts c with h | ⟨h1, h2, h3, h4, h5, h6⟩
    · simp [h]; omega
    · exact ⟨h1, fun _ => by omega, fun _ => h2, fun _ => h3, h6, by omega⟩
  · rcases toupper_facts c with h | ⟨h1, h2, h3, h4, h5, h6⟩
    · simp [h]; omega
    · exact ⟨h1, fun _ => by omega, fun _ => h2, fun _ => h3, h6, by omega⟩

example : casefold (tolower 0x1E9E) = casefold 0x1E9E := (case_mapping 0x1E9E).2.1.2.2.2.2.1 (by decide)

/-- C78, ASCII: on code points below 128 the functions change exactly the letters of the other
case. -/
theorem case_mapping_ascii (c : Nat) (h : c < 128) :
    casefold c = (if 65 ≤ c ∧ c ≤ 90 then c + 32 else c) ∧
    tolower c = (if 65 ≤ c ∧ c ≤ 90 then c + 32 else c) ∧
    toupper c = (if 97 ≤ c ∧ c ≤ 122 then c - 32 else c) := ascii_tab c h

/-- C78, the two exceptions: lower-casing U+0130 and upper-casing U+0131 change the folded form. -/
theorem case_mapping_dotted_i :
    casefold (tolower 0x130) ≠ casefold 0x130 ∧ casefold (toupper 0x131) ≠ casefold 0x131 := by
  decide +kernel

end Verif.Utf8
