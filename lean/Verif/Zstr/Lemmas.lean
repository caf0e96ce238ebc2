import Verif.Zstr.Model
import Verif.Csview.Props
/- Lemmas about the queries on NUL-terminated strings. -/
namespace Verif.Zstr
open Verif.Utf8 Verif.Utf8.Spec Verif.Csview

theorem startsWith_spec (j j2 : List Byte) : ∀ (c s : List Byte), 0#8 ∉ c →
    startsWith (s ++ 0#8 :: j) (c ++ 0#8 :: j2) = some (decide (c <+: s)) := by
  intro c
  induction c with
  | nil => intro s _; rw [startsWith.eq_def]; simp
  | cons b c ih =>
    intro s h
    have hb : b ≠ 0#8 := by rintro rfl; simp at h
    have hc : 0#8 ∉ c := fun h' => h (by simp [h'])
    rw [List.cons_append, startsWith.eq_def]
    simp only [if_neg hb]
    cases s with
    | nil =>
      simp only [List.nil_append]
      rw [if_neg (fun e => hb e.symm)]; simp
    | cons a s =>
      simp only [List.cons_append]
      by_cases e : a = b
      · subst e
        rw [if_pos rfl, ih s hc]
        congr 1; rw [decide_eq_decide, List.cons_prefix_cons]; simp
      · rw [if_neg e]
        congr 1; symm; rw [decide_eq_false_iff_not, List.cons_prefix_cons]
        exact fun h => e h.1.symm

/-- the search of the C library sees the bytes before the first NUL. -/
theorem strstrLoop_spec (j j2 c : List Byte) (hc : 0#8 ∉ c) : ∀ (s : List Byte) (off : Nat), 0#8 ∉ s →
    ∃ r, strstrLoop (c ++ 0#8 :: j2) (s ++ 0#8 :: j) off = some r ∧
      (r = none → ∀ i ≤ s.length, ¬ c <+: s.drop i) ∧
      (∀ i, r = some i → ∃ i', i = off + i' ∧ i' + c.length ≤ s.length ∧ c <+: s.drop i' ∧
        ∀ i'' < i', ¬ c <+: s.drop i'') := by
  intro s
  induction s with
  | nil =>
    intro off _
    have e := startsWith_spec j j2 c [] hc
    rw [List.nil_append] at e
    rw [List.nil_append, strstrLoop, e]
    simp only [Option.bind_eq_bind, Option.bind_some, decide_eq_true_eq]
    by_cases h : c <+: []
    · rw [if_pos h]
      have hc0 : c = [] := List.prefix_nil.1 h
      subst hc0
      exact ⟨_, rfl, by simp, fun i hi => ⟨0, by simp_all⟩⟩
    · rw [if_neg h, if_pos trivial]
      refine ⟨_, rfl, fun _ i hi => ?_, by simp⟩
      simp only [List.length_nil, Nat.le_zero_eq] at hi
      subst hi; exact h
  | cons a s ih =>
    intro off hs
    have ha : a ≠ 0#8 := by rintro rfl; simp at hs
    have e := startsWith_spec j j2 c (a :: s) hc
    rw [List.cons_append] at e
    rw [List.cons_append, strstrLoop, e]
    simp only [Option.bind_eq_bind, Option.bind_some, decide_eq_true_eq]
    by_cases h : c <+: a :: s
    · rw [if_pos h]
      refine ⟨_, rfl, by simp, fun i hi => ⟨0, by simp_all, ?_, h, by simp⟩⟩
      have := h.length_le
      omega
    · rw [if_neg h, if_neg ha]
      obtain ⟨r, e, h1, h2⟩ := ih (off + 1) (fun h' => hs (by simp [h']))
      refine ⟨r, e, fun hr i hi => ?_, fun i hi => ?_⟩
      · cases i with
        | zero => exact h
        | succ i => exact h1 hr i (by simpa using hi)
      · obtain ⟨i', e1, e2, e3, e4⟩ := h2 i hi
        refine ⟨i' + 1, by omega, by simp only [List.length_cons]; omega, e3, fun i'' hi'' => ?_⟩
        cases i'' with
        | zero => exact h
        | succ i'' => exact e4 i'' (by omega)

theorem strstr_spec (s j c j2 : List Byte) (hs : 0#8 ∉ s) (hc : 0#8 ∉ c) :
    ∃ r, strstr (s ++ 0#8 :: j) (c ++ 0#8 :: j2) = some r ∧
      (r = none → ∀ i ≤ s.length, ¬ c <+: s.drop i) ∧
      (∀ i, r = some i → i + c.length ≤ s.length ∧ c <+: s.drop i ∧ ∀ i' < i, ¬ c <+: s.drop i') := by
  obtain ⟨r, e, h1, h2⟩ := strstrLoop_spec j j2 c hc s 0 hs
  refine ⟨r, e, h1, fun i hi => ?_⟩
  obtain ⟨i', e1, h⟩ := h2 i hi
  rw [Nat.zero_add] at e1
  subst e1; exact h

/-! ### moving by code points -/

theorem offF_eq : ∀ (n : Nat) (m : List Byte), m ≠ [] → offF n m = at' n m
  | 0, [], h => by simp at h
  | 0, _ :: _, _ => rfl
  | n + 1, [], h => by simp at h
  | n + 1, b :: m, _ => by
    rw [offF, at']
    split
    · rfl
    · cases m with
      | nil => rfl
      | cons b' m =>
        simp only [List.head?_cons, Option.bind_eq_bind, Option.bind_some]
        rw [offF_eq _ (b' :: m) (by simp)]
  termination_by _ m => m.length

/-- moving back over bytes that are not NUL: as far as there are lead bytes. -/
theorem offB_eq : ∀ (before : List Byte) (n : Nat) (cur : Byte), cur ≠ 0#8 → 0#8 ∉ before →
    offB n cur before = if n ≤ before.countP lead then some (bwd n before) else none := by
  intro before
  induction before with
  | nil =>
    intro n cur hc _
    cases n with
    | zero => simp [offB, bwd]
    | succ n => simp [offB, hc]
  | cons b r ih =>
    intro n cur hc h0
    have hb : b ≠ 0#8 := by rintro rfl; simp at h0
    have hr : 0#8 ∉ r := fun h' => h0 (by simp [h'])
    cases n with
    | zero => simp [offB, bwd]
    | succ n =>
      rw [offB, if_neg hc]
      rw [ih _ b hb hr, bwd, List.countP_cons]
      cases lead b <;> simp only [Bool.false_eq_true, if_false, if_true]
      · by_cases h : n + 1 ≤ r.countP lead
        · rw [if_pos h, if_pos (by omega)]; rfl
        · rw [if_neg h, if_neg (by omega)]; rfl
      · by_cases h : n ≤ r.countP lead
        · rw [if_pos h, if_pos (by omega)]; rfl
        · rw [if_neg h, if_neg (by omega)]; rfl

theorem countP_text : ∀ cs, Text cs → (text cs).countP lead = cs.length := by
  intro cs
  induction cs with
  | nil => intro _; rfl
  | cons c cs ih =>
    intro h
    obtain ⟨b, tl, e, _, h2, h3, _⟩ := enc_shape (h c (by simp)).1 (h c (by simp)).2
    have ht : tl.countP lead = 0 := by
      rw [List.countP_eq_zero]; intro x hx; rw [(h3 x hx).2]; simp
    rw [text_cons, List.countP_append, e, List.countP_cons, ht, h2, ih (fun x hx => h x (by simp [hx]))]
    simp; omega

theorem Text.take {cs : List Nat} (h : Text cs) (i : Nat) : Text (cs.take i) :=
  fun c hc => h c (List.mem_of_mem_take hc)

theorem Text.drop {cs : List Nat} (h : Text cs) (i : Nat) : Text (cs.drop i) :=
  fun c hc => h c (List.mem_of_mem_drop hc)

/-- the memory from the `i`-th character of a text. -/
theorem drop_text (pre j : List Byte) (cs : List Nat) (i : Nat) :
    (pre ++ text cs ++ 0#8 :: j).drop (pre.length + (text (cs.take i)).length) = text (cs.drop i) ++ 0#8 :: j := by
  rw [text_take_drop cs i, ← List.append_assoc pre, List.append_assoc, ← List.length_append, List.drop_left]

theorem take_text (pre j : List Byte) (cs : List Nat) (i : Nat) :
    (pre ++ text cs ++ 0#8 :: j).take (pre.length + (text (cs.take i)).length) = pre ++ text (cs.take i) := by
  rw [text_take_drop cs i, ← List.append_assoc pre, List.append_assoc, ← List.length_append, List.take_left]

/-- forwards: clamped to the end of the text. -/
theorem offset_fwd (pre j : List Byte) (cs : List Nat) (h : Text cs) (i k : Nat) :
    offset (pre ++ text cs ++ 0#8 :: j) (pre.length + (text (cs.take i)).length) (k : Int) =
      some (pre.length + (text (cs.take (i + k))).length) := by
  rw [offset, if_neg (by omega), drop_text, Int.toNat_natCast, offF_eq _ _ (by simp),
    at_text j _ (Text.drop h i), Option.map_some]
  congr 1
  have : text (cs.take (i + k)) = text (cs.take i) ++ text ((cs.drop i).take k) := by
    rw [List.take_add]; simp [text]
  rw [this, List.length_append]; omega

/-- the byte at the `i`-th character. -/
theorem getElem_text (pre j : List Byte) (cs : List Nat) (h : Text cs) (i : Nat) (hi : i < cs.length) :
    ∃ b, (pre ++ text cs ++ 0#8 :: j)[pre.length + (text (cs.take i)).length]? = some b ∧ b ≠ 0#8 ∧
      chrSize ((pre ++ text cs ++ 0#8 :: j).drop (pre.length + (text (cs.take i)).length)) =
        some (enc cs[i]).length := by
  have hc := h cs[i] (List.getElem_mem _)
  obtain ⟨b, tl, e, h1, _⟩ := enc_shape hc.1 hc.2
  have hd : (pre ++ text cs ++ 0#8 :: j).drop (pre.length + (text (cs.take i)).length) =
      enc cs[i] ++ (text (cs.drop (i + 1)) ++ 0#8 :: j) := by
    rw [drop_text, List.drop_eq_getElem_cons hi, text_cons, List.append_assoc]
  refine ⟨b, ?_, h1, by rw [hd, chrSize_enc hc]⟩
  have := congrArg List.head? hd
  rw [List.head?_drop, e] at this
  exact this

theorem getElem_end (pre j : List Byte) (cs : List Nat) (i : Nat) (hi : cs.length ≤ i) :
    (pre ++ text cs ++ 0#8 :: j)[pre.length + (text (cs.take i)).length]? = some 0#8 ∧
      chrSize ((pre ++ text cs ++ 0#8 :: j).drop (pre.length + (text (cs.take i)).length)) = some 1 := by
  have hd : (pre ++ text cs ++ 0#8 :: j).drop (pre.length + (text (cs.take i)).length) = 0#8 :: j := by
    rw [drop_text, List.drop_eq_nil_of_le hi]; rfl
  constructor
  · have := congrArg List.head? hd
    rw [List.head?_drop] at this
    exact this
  · rw [hd]; rfl

/-- backwards, when the bytes before are not NUL. -/
theorem offset_bwd (pre j : List Byte) (cs : List Nat) (h : Text cs) (i k : Nat) (hi : i < cs.length)
    (hk : 0 < k) (hr : k < 2 ^ 63) :
    (k ≤ i → offset (pre ++ text cs ++ 0#8 :: j) (pre.length + (text (cs.take i)).length) (-(k : Int)) =
      some (pre.length + (text (cs.take (i - k))).length)) ∧
    (pre = [] → i < k → offset (pre ++ text cs ++ 0#8 :: j) (pre.length + (text (cs.take i)).length) (-(k : Int)) =
      none) := by
  obtain ⟨b, hb, hb0, _⟩ := getElem_text pre j cs h i hi
  have h0 : 0#8 ∉ text (cs.take i) := text_no_nul (Text.take h i)
  have hcnt := countP_text (cs.take i) (Text.take h i)
  rw [List.length_take, Nat.min_eq_left (by omega)] at hcnt
  rw [offset, if_pos (by omega), guard_pos (by omega), hb, take_text]
  simp only [Option.bind_eq_bind, Option.bind_some, show (-(k : Int)).natAbs = k by omega]
  constructor
  · intro hki
    -- split the text before the position
    have hsplit : ∀ (before R : List Byte) (n : Nat) (cur : Byte), cur ≠ 0#8 → 0#8 ∉ before →
        n ≤ before.countP lead → offB n cur (before ++ R) = some (bwd n before) := by
      intro before R
      induction before with
      | nil =>
        intro n cur _ _ hn
        simp only [List.countP_nil, Nat.le_zero_eq] at hn
        subst hn; simp [offB, bwd]
      | cons b r ih =>
        intro n cur hc hz hn
        have hb : b ≠ 0#8 := by rintro rfl; simp at hz
        cases n with
        | zero => simp [offB, bwd]
        | succ n =>
          rw [List.cons_append, offB, if_neg hc]
          rw [List.countP_cons] at hn
          rw [ih _ b hb (fun h' => hz (by simp [h'])) (by
            cases hl : lead b <;> simp only [hl, Bool.false_eq_true, if_false, if_true] at hn ⊢ <;> omega), bwd]
          rfl
    rw [List.reverse_append, hsplit _ _ _ _ hb0 (by simpa using h0) (by rw [List.countP_reverse, hcnt]; exact hki)]
    have e := bwd_text (cs.take i).reverse (by simpa using Text.take h i) k
    rw [List.reverse_reverse, List.take_reverse, List.reverse_reverse, List.length_take,
      Nat.min_eq_left (by omega), List.drop_take] at e
    rw [e, Option.bind_some]
    congr 1
    have : text (cs.take i) = text (cs.take (i - k)) ++ text ((cs.drop (i - k)).take (i - (i - k))) := by
      conv => lhs; rw [show i = (i - k) + (i - (i - k)) by omega, List.take_add]
      simp [text]
    rw [this, List.length_append]; omega
  · intro hp hlt
    subst hp
    rw [List.nil_append, offB_eq _ _ _ hb0 (by simpa using h0), if_neg (by rw [List.countP_reverse, hcnt]; omega)]
    rfl

end Verif.Zstr
