import Verif.Utf8.Lemmas
import Verif.Utf8.Case
namespace Verif.Utf8
open Spec

theorem head_enc {c : Nat} (h : Scalar c) (h0 : c ≠ 0) (m : List Byte) :
    ∃ b, (enc c ++ m).head? = some b ∧ b ≠ 0#8 := by
  obtain ⟨b, tl, e, hb, _⟩ := enc_shape h h0
  exact ⟨b, by rw [e]; rfl, hb⟩

theorem drop_enc (c : Nat) (m : List Byte) : (enc c ++ m).drop (enc c).length = m := by simp

theorem Spec.Text.tail {c : Nat} {cs : List Nat} (h : Text (c :: cs)) : Text cs := fun x hx => h x (by simp [hx])

theorem Spec.Text.head {c : Nat} {cs : List Nat} (h : Text (c :: cs)) : Scalar c ∧ c ≠ 0 := h c (by simp)

/-- one iteration on two code points. -/
theorem icmp_step {diff : Int} {f c1 c2 n1 n2 : Nat} {r1 r2 : List Byte}
    (h1 : Scalar c1) (h2 : Scalar c2 ∧ c2 ≠ 0) (hn1 : (enc c1).length ≤ n1) (hn2 : (enc c2).length ≤ n2) :
    icmpLoop diff (f + 1) (enc c1 ++ r1) n1 (enc c2 ++ r2) n2 =
      if casefold c1 = casefold c2 then
        icmpLoop diff f r1 (n1 - (enc c1).length) r2 (n2 - (enc c2).length)
      else some ((casefold c1 : Int) - casefold c2) := by
  have p1 := List.length_pos_iff.2 (enc_ne_nil c1)
  have p2 := List.length_pos_iff.2 (enc_ne_nil c2)
  obtain ⟨b2, e2, hb2⟩ := head_enc h2.1 h2.2 r2
  rw [icmpLoop, if_neg (by omega)]
  simp only [e2, Option.bind_eq_bind, Option.bind_some, if_neg hb2, decodeCp_enc h1 r1 hn1,
    decodeCp_enc h2.1 r2 hn2, drop_enc]
  by_cases h : casefold c1 = casefold c2
  · rw [if_pos h, if_neg (by omega)]
  · rw [if_neg h, if_pos (by omega)]

theorem toInt32_small {x : Int} (h1 : -2 ^ 31 ≤ x) (h2 : x < 2 ^ 31) : toInt32 x = x := by
  rw [toInt32, BitVec.toInt_ofInt, Int.bmod_eq_of_le (by omega) (by omega)]

theorem sign_toInt32 {x : Int} (h1 : -2 ^ 31 ≤ x) (h2 : x < 2 ^ 31) : (toInt32 x).sign = x.sign := by
  rw [toInt32_small h1 h2]

/-- a code point whose folded form has the same encoded length. -/
def Stable (c : Nat) : Prop := (enc (casefold c)).length = (enc c).length

instance (c : Nat) : Decidable (Stable c) := inferInstanceAs (Decidable (_ = _))

theorem lex_zero : ∀ a b : List Nat, lex a b = 0 ↔ a = b := by
  intro a
  induction a with
  | nil => intro b; cases b <;> simp [lex]
  | cons x a ih =>
    intro b
    cases b with
    | nil => simp [lex]
    | cons y b =>
      simp only [lex, List.cons.injEq]
      rcases Nat.lt_trichotomy x y with h | h | h
      · rw [if_pos h]; simp; intro h'; omega
      · rw [if_neg (by omega), if_neg (by omega), ih]; simp [h]
      · rw [if_neg (by omega), if_pos h]; simp; intro h'; omega

theorem lex_antisymm : ∀ a b : List Nat, lex a b = - lex b a := by
  intro a
  induction a with
  | nil => intro b; cases b <;> simp [lex]
  | cons x a ih =>
    intro b
    cases b with
    | nil => simp [lex]
    | cons y b =>
      simp only [lex]
      rcases Nat.lt_trichotomy x y with h | h | h
      · rw [if_pos h, if_neg (by omega), if_pos h]
      · rw [if_neg (by omega), if_neg (by omega), if_neg (by omega), if_neg (by omega), ih]
      · rw [if_neg (by omega), if_pos h, if_pos h]; rfl

theorem lex_trans : ∀ a b c : List Nat, lex a b ≤ 0 → lex b c ≤ 0 → lex a c ≤ 0 := by
  intro a
  induction a with
  | nil => intro b c _ _; cases c <;> simp [lex]
  | cons x a ih =>
    intro b c h1 h2
    cases b with
    | nil => simp [lex] at h1
    | cons y b =>
      cases c with
      | nil => simp [lex] at h2
      | cons z c =>
        simp only [lex] at h1 h2 ⊢
        rcases Nat.lt_trichotomy x y with h | h | h
        · rcases Nat.lt_trichotomy y z with h' | h' | h'
          · rw [if_pos (by omega)]; decide
          · rw [if_pos (by omega)]; decide
          · rw [if_neg (by omega), if_pos h'] at h2; omega
        · rcases Nat.lt_trichotomy y z with h' | h' | h'
          · rw [if_pos (by omega)]; decide
          · rw [if_neg (by omega), if_neg (by omega)] at h1 h2 ⊢
            exact ih b c h1 h2
          · rw [if_neg (by omega), if_pos h'] at h2; omega
        · rw [if_neg (by omega), if_pos h] at h1; omega

theorem text_length_pos {c : Nat} {cs : List Nat} : 0 < (text (c :: cs)).length := by
  rw [text_cons, List.length_append]
  have := List.length_pos_iff.2 (enc_ne_nil c)
  omega

/-- comparison of two views. -/
theorem icmp_view (j1 j2 : List Byte) : ∀ (cs1 cs2 : List Nat) (f : Nat) (diff : Int),
    Text cs1 → Text cs2 → (∀ c ∈ cs1, Stable c) → (∀ c ∈ cs2, Stable c) →
    diff = ((text cs1).length : Int) - (text cs2).length →
    -2 ^ 31 ≤ diff → diff < 2 ^ 31 → cs1.length < f →
    ∃ r, icmpLoop diff f (text cs1 ++ j1) (text cs1).length (text cs2 ++ j2) (text cs2).length = some r ∧
      r.sign = lex (cs1.map casefold) (cs2.map casefold) := by
  intro cs1
  induction cs1 with
  | nil =>
    intro cs2 f diff t1 t2 s1 s2 hd h1 h2 hf
    match f, hf with
    | f + 1, hf =>
    refine ⟨toInt32 diff, by rw [icmpLoop, if_pos (Or.inl (by simp [text]))], ?_⟩
    rw [sign_toInt32 h1 h2, hd]
    cases cs2 with
    | nil => rfl
    | cons c2 cs2 =>
      have := text_length_pos (c := c2) (cs := cs2)
      simp only [text, List.flatMap_nil, List.length_nil, List.map_nil, List.map_cons, lex] at this ⊢
      exact Int.sign_eq_neg_one_iff_neg.2 (by omega)
  | cons c1 cs1 ih =>
    intro cs2 f diff t1 t2 s1 s2 hd h1 h2 hf
    match f, hf with
    | f + 1, hf =>
    cases cs2 with
    | nil =>
      refine ⟨toInt32 diff, by rw [icmpLoop, if_pos (Or.inr (by simp [text]))], ?_⟩
      rw [sign_toInt32 h1 h2, hd]
      have := text_length_pos (c := c1) (cs := cs1)
      rw [List.map_cons, List.map_nil, lex]
      simp only [text, List.flatMap_nil, List.length_nil] at this ⊢
      exact Int.sign_eq_one_iff_pos.2 (by omega)
    | cons c2 cs2 =>
      simp only [text_cons, List.append_assoc]
      rw [icmp_step t1.head.1 t2.head (by simp) (by simp)]
      simp only [List.map_cons, lex]
      by_cases hc : casefold c1 = casefold c2
      · rw [if_pos hc, if_neg (by omega), if_neg (by omega)]
        have hlen : (enc c1).length = (enc c2).length := by
          rw [← s1 c1 (by simp), ← s2 c2 (by simp), hc]
        have := ih cs2 f diff t1.tail t2.tail (fun c h => s1 c (by simp [h])) (fun c h => s2 c (by simp [h]))
          (by rw [hd, text_cons, text_cons, List.length_append, List.length_append, hlen]; omega)
          h1 h2 (by simp only [List.length_cons] at hf; omega)
        simpa using this
      · rw [if_neg hc]
        refine ⟨_, rfl, ?_⟩
        by_cases hl : casefold c1 < casefold c2
        · rw [if_pos hl]; exact Int.sign_eq_neg_one_iff_neg.2 (by omega)
        · rw [if_neg hl, if_pos (by omega)]; exact Int.sign_eq_one_iff_pos.2 (by omega)

theorem casefold_zero : casefold 0 = 0 := by decide +kernel

theorem casefold_ne_zero {c : Nat} (h : c ≠ 0) : casefold c ≠ 0 := by
  rcases casefold_facts c with h' | h'
  · rwa [h']
  · exact h'.2.2.1

theorem enc_le_four (c : Nat) : (enc c).length ≤ 4 := by
  unfold enc; repeat' split
  all_goals simp

theorem byte_toInt_lead : ∀ n < 256, (n < 0x80 → n ≠ 0 → 0 < (BitVec.ofNat 8 n).toInt) ∧
    (n ≠ 0 → (BitVec.ofNat 8 n).toInt ≠ 0) := by decide +kernel

theorem toInt_pos {b : Byte} (h : b ≠ 0#8) (h8 : b.toNat < 0x80) : 0 < b.toInt := by
  have := (byte_toInt_lead b.toNat b.isLt).1 h8 (by intro h0; exact h (by rw [byte_ext h0]))
  simpa using this

theorem toInt_ne {b : Byte} (h : b ≠ 0#8) : b.toInt ≠ 0 := by
  have := (byte_toInt_lead b.toNat b.isLt).2 (by intro h0; exact h (by rw [byte_ext h0]))
  simpa using this

/-- comparison of two NUL-terminated strings. -/
theorem icmp_nul (j1 j2 : List Byte) (diff : Int) : ∀ (cs1 cs2 : List Nat) (f n1 n2 : Nat),
    Text cs1 → Text cs2 → (text cs1).length + 1 ≤ n1 → (text cs2).length + 1 ≤ n2 → cs1.length < f →
    ∃ r, icmpLoop diff f (text cs1 ++ 0#8 :: j1) n1 (text cs2 ++ 0#8 :: j2) n2 = some r ∧
      (r = 0 ↔ cs1.map casefold = cs2.map casefold) ∧
      ((∀ c, cs1[cs2.length]? = some c → c < 0x80) → r.sign = lex (cs1.map casefold) (cs2.map casefold)) := by
  intro cs1
  induction cs1 with
  | nil =>
    intro cs2 f n1 n2 t1 t2 h1 h2 hf
    match f, hf with
    | f + 1, hf =>
    cases cs2 with
    | nil =>
      refine ⟨0, ?_, by simp, by simp [lex]⟩
      rw [icmpLoop, if_neg (by omega)]
      simp [text]
    | cons c2 cs2 =>
      have e := icmp_step (diff := diff) (f := f) (c1 := 0) (c2 := c2) (n1 := n1) (n2 := n2) (r1 := j1)
        (r2 := text cs2 ++ 0#8 :: j2) (Or.inl (by omega)) t2.head (by simp [enc_zero]; omega)
        (by rw [text_cons, List.length_append] at h2; omega)
      rw [casefold_zero, enc_zero, if_neg (Ne.symm (casefold_ne_zero t2.head.2))] at e
      have hpos := casefold_ne_zero t2.head.2
      refine ⟨((0 : Nat) : Int) - casefold c2, ?_, ?_, ?_⟩
      · rw [text_cons, List.append_assoc]; exact e
      · simp; omega
      · intro _; simp only [List.map_nil, List.map_cons, lex]
        exact Int.sign_eq_neg_one_iff_neg.2 (by omega)
  | cons c1 cs1 ih =>
    intro cs2 f n1 n2 t1 t2 h1 h2 hf
    match f, hf with
    | f + 1, hf =>
    cases cs2 with
    | nil =>
      obtain ⟨b, e, hb⟩ := head_enc t1.head.1 t1.head.2 (text cs1 ++ 0#8 :: j1)
      refine ⟨b.toInt, ?_, ?_, ?_⟩
      · rw [icmpLoop, if_neg (by omega)]
        simp only [text_cons, List.append_assoc, e]
        rfl
      · simp [toInt_ne hb]
      · intro hc
        have hc1 : c1 < 0x80 := hc c1 (by simp)
        simp only [List.map_cons, List.map_nil, lex]
        refine Int.sign_eq_one_iff_pos.2 (toInt_pos hb ?_)
        rw [enc, if_pos hc1] at e
        simp only [List.cons_append, List.head?_cons, Option.some.injEq] at e
        rw [← e, toNat_ofNat8 (by omega)]
        exact hc1
    | cons c2 cs2 =>
      have l1 := h1; have l2 := h2
      rw [text_cons, List.length_append] at l1 l2
      simp only [text_cons, List.append_assoc]
      rw [icmp_step t1.head.1 t2.head (by omega) (by omega)]
      simp only [List.map_cons, lex, List.cons.injEq]
      by_cases hc : casefold c1 = casefold c2
      · rw [if_pos hc, if_neg (by omega), if_neg (by omega)]
        obtain ⟨r, e, hz, hs⟩ := ih cs2 f (n1 - (enc c1).length) (n2 - (enc c2).length) t1.tail t2.tail
          (by omega) (by omega) (by simp only [List.length_cons] at hf; omega)
        refine ⟨r, e, by simp [hz, hc], fun h => hs fun c hc' => h c (by simpa using hc')⟩
      · rw [if_neg hc]
        refine ⟨_, rfl, by simp [hc]; omega, fun _ => ?_⟩
        by_cases hl : casefold c1 < casefold c2
        · rw [if_pos hl]; exact Int.sign_eq_neg_one_iff_neg.2 (by omega)
        · rw [if_neg hl, if_pos (by omega)]; exact Int.sign_eq_one_iff_pos.2 (by omega)

theorem length_le_text (cs : List Nat) : cs.length ≤ (text cs).length := by
  induction cs with
  | nil => simp
  | cons c cs ih =>
    have := List.length_pos_iff.2 (enc_ne_nil c)
    rw [text_cons, List.length_append, List.length_cons]; omega

end Verif.Utf8
