import Verif.Csview.Model
import Verif.Utf8.Props
namespace Verif.Csview
open Verif.Utf8 Verif.Utf8.Spec

theorem guard_neg {p : Prop} [Decidable p] (h : ¬ p) : (guard p : Option Unit) = none := by
  simp only [guard, h, if_false]; rfl

theorem strlen_eq (j : List Byte) : ∀ c : List Byte, 0#8 ∉ c → strlen (c ++ 0#8 :: j) = some c.length := by
  intro c
  induction c with
  | nil => intro _; simp [strlen]
  | cons b c ih =>
    intro h
    simp only [List.mem_cons, not_or] at h
    rw [List.cons_append, strlen, if_neg (fun e => h.1 e.symm), ih h.2]; rfl

theorem take_app {s j : List Byte} : (s ++ j).take s.length = s := List.take_left

theorem toNat_inj8 {a b : Byte} (h : a.toNat = b.toNat) : a = b := BitVec.eq_of_toNat_eq h

theorem memcmpLoop_sign : ∀ p q : List Byte, p.length = q.length →
    (memcmpLoop p q).sign = lex (p.map (·.toNat)) (q.map (·.toNat)) := by
  intro p
  induction p with
  | nil => intro q h; cases q <;> simp_all [memcmpLoop, lex]
  | cons a p ih =>
    intro q h
    cases q with
    | nil => simp at h
    | cons b q =>
      simp only [memcmpLoop, List.map_cons, lex]
      by_cases hab : a = b
      · subst hab
        rw [if_pos rfl, if_neg (by omega), if_neg (by omega)]
        exact ih q (by simpa using h)
      · have : a.toNat ≠ b.toNat := fun e => hab (toNat_inj8 e)
        rw [if_neg hab]
        by_cases hl : a.toNat < b.toNat
        · rw [if_pos hl]; exact Int.sign_eq_neg_one_iff_neg.2 (by omega)
        · rw [if_neg hl, if_pos (by omega)]; exact Int.sign_eq_one_iff_pos.2 (by omega)

theorem map_toNat_inj {p q : List Byte} (h : p.map (·.toNat) = q.map (·.toNat)) : p = q := by
  induction p generalizing q with
  | nil => cases q <;> simp_all
  | cons a p ih =>
    cases q with
    | nil => simp at h
    | cons b q =>
      simp only [List.map_cons, List.cons.injEq] at h
      rw [toNat_inj8 h.1, ih h.2]

theorem memcmpLoop_zero {p q : List Byte} (h : p.length = q.length) : memcmpLoop p q = 0 ↔ p = q := by
  rw [← Int.sign_eq_zero_iff_zero, memcmpLoop_sign p q h, lex_zero]
  exact ⟨map_toNat_inj, fun e => by rw [e]⟩

theorem memcmp_eq {p q : List Byte} {n : Nat} (h1 : n ≤ p.length) (h2 : n ≤ q.length) :
    (memcmp p q n).map (· == 0) = some (decide (p.take n = q.take n)) := by
  rw [memcmp, if_pos ⟨h1, h2⟩, Option.map_some]
  congr 1
  rw [Bool.eq_iff_iff, beq_iff_eq, decide_eq_true_iff]
  exact memcmpLoop_zero (by simp; omega)

theorem prefix_iff_take {nd s : List Byte} : nd <+: s ↔ nd.length ≤ s.length ∧ s.take nd.length = nd := by
  rw [List.prefix_iff_eq_take]
  constructor
  · intro h
    refine ⟨?_, h.symm⟩
    have := congrArg List.length h
    simp at this; omega
  · rintro ⟨_, h⟩; exact h.symm

theorem hitAt_spec {nd s j j2 : List Byte} (hne : nd ≠ []) (hl : nd.length ≤ s.length) :
    hitAt (s ++ j) (nd ++ j2) nd.length = some (decide (nd <+: s)) := by
  cases nd with
  | nil => exact absurd rfl hne
  | cons b nd =>
    cases s with
    | nil => simp at hl
    | cons a s =>
      simp only [hitAt, List.cons_append, List.head?_cons, Option.bind_eq_bind, Option.bind_some]
      by_cases hab : a = b
      · rw [if_pos hab, memcmp_eq (by simp at hl ⊢; omega) (by simp)]
        congr 1
        rw [decide_eq_decide, ← List.cons_append, ← List.cons_append, List.take_append_of_le_length hl, List.take_left,
          prefix_iff_take]
        exact ⟨fun h => ⟨hl, h⟩, fun h => h.2⟩
      · rw [if_neg hab]
        congr 1
        symm
        rw [decide_eq_false_iff_not]
        rintro ⟨t, ht⟩
        simp at ht
        exact hab ht.1.symm

theorem strnstrnLoop_spec {nd j2 j : List Byte} (hne : nd ≠ []) :
    ∀ (k : Nat) (s : List Byte) (off : Nat), s.length = k + nd.length →
    ∃ r, strnstrnLoop (nd ++ j2) nd.length k (s ++ j) off = some r ∧
      (r = none → ∀ i : Nat, ¬ nd <+: s.drop i) ∧
      (∀ m, r = some m → ∃ i, m = off + i ∧ nd <+: s.drop i ∧ ∀ i' < i, ¬ nd <+: s.drop i') := by
  intro k
  have hpos := List.length_pos_iff.2 hne
  induction k with
  | zero =>
    intro s off hs
    rw [strnstrnLoop, hitAt_spec hne (by omega)]
    simp only [Option.bind_eq_bind, Option.bind_some]
    by_cases hp : nd <+: s
    · exact ⟨some off, by simp [hp], by simp, fun m hm => ⟨0, by simpa using hm.symm, by simpa using hp, by simp⟩⟩
    · refine ⟨none, by simp [hp], fun _ i => ?_, by simp⟩
      cases i with
      | zero => exact hp
      | succ i => intro h; have := h.length_le; simp at this; omega
  | succ k ih =>
    intro s off hs
    cases s with
    | nil => simp at hs; omega
    | cons a s =>
      obtain ⟨r, e, h1, h2⟩ := ih s (off + 1) (by simp at hs; omega)
      rw [strnstrnLoop, hitAt_spec hne (by omega)]
      simp only [Option.bind_eq_bind, Option.bind_some]
      by_cases hp : nd <+: a :: s
      · exact ⟨some off, by simp [hp], by simp, fun m hm => ⟨0, by simpa using hm.symm, by simpa using hp, by simp⟩⟩
      · refine ⟨r, by simpa [hp] using e, fun hr i => ?_, fun m hm => ?_⟩
        · cases i with
          | zero => exact hp
          | succ i => exact h1 hr i
        · obtain ⟨i, hm, hi, hi'⟩ := h2 m hm
          refine ⟨i + 1, by omega, hi, fun i' hi2 => ?_⟩
          cases i' with
          | zero => exact hp
          | succ i' => exact hi' i' (by omega)

/-- the substring search: leftmost occurrence, or none. -/
theorem strnstrn_spec (s nd j j2 : List Byte) :
    ∃ r, strnstrn (s ++ j) s.length (nd ++ j2) nd.length = some r ∧
      (r = none → ∀ i ≤ s.length, ¬ nd <+: s.drop i) ∧
      (∀ i, r = some i → i + nd.length ≤ s.length ∧ nd <+: s.drop i ∧ ∀ i' < i, ¬ nd <+: s.drop i') := by
  rw [strnstrn]
  by_cases h0 : nd.length = 0
  · have : nd = [] := List.length_eq_zero_iff.1 h0
    subst this
    exact ⟨some 0, rfl, by simp, fun i hi => by
      simp only [Option.some.injEq] at hi; subst hi; simp⟩
  · rw [if_neg h0]
    by_cases h1 : nd.length > s.length
    · rw [if_pos h1]
      refine ⟨none, rfl, fun _ i _ h => ?_, by simp⟩
      have := h.length_le
      simp at this; omega
    · rw [if_neg h1]
      have hne : nd ≠ [] := by rintro rfl; simp at h0
      obtain ⟨r, e, h2, h3⟩ := strnstrnLoop_spec (j := j) (j2 := j2) hne (s.length - nd.length) s 0 (by omega)
      refine ⟨r, e, fun hr i _ => h2 hr i, fun i hi => ?_⟩
      obtain ⟨i', e', hp, hl⟩ := h3 i hi
      have : i = i' := by omega
      subst this
      have := hp.length_le
      have hp0 := List.length_pos_iff.2 hne
      simp at this
      exact ⟨by omega, hp, hl⟩

/-! ### trimming -/

theorem trimStart_spec (signed : Bool) (j : List Byte) : ∀ s : List Byte,
    trimStart signed (s ++ j) s.length =
      some ((s.takeWhile (blank signed)).length, (s.dropWhile (blank signed)).length) := by
  intro s
  induction s with
  | nil => cases j <;> simp [trimStart]
  | cons b s ih =>
    rw [List.cons_append, List.length_cons, trimStart]
    by_cases h : blank signed b
    · rw [if_pos h, ih, List.takeWhile_cons, if_pos h, List.dropWhile_cons, if_pos h]; rfl
    · rw [if_neg h, List.takeWhile_cons, if_neg h, List.dropWhile_cons, if_neg h]; rfl

theorem trimEnd_spec (signed : Bool) (m : List Byte) : ∀ n, n ≤ m.length →
    ∃ k, trimEnd signed m n = some k ∧ k ≤ n ∧ (∀ i, k ≤ i → i < n → ∃ b, m[i]? = some b ∧ blank signed b = true) ∧
      (k ≠ 0 → ∃ b, m[k - 1]? = some b ∧ blank signed b = false) := by
  intro n
  induction n with
  | zero => intro _; exact ⟨0, rfl, Nat.le_refl _, fun i _ h => by omega, fun h => absurd rfl h⟩
  | succ n ih =>
    intro hn
    have e : m[n]? = some m[n] := List.getElem?_eq_getElem (by omega)
    rw [trimEnd, e]
    simp only [Option.bind_eq_bind, Option.bind_some]
    by_cases h : blank signed m[n]
    · obtain ⟨k, e1, h1, h2, h3⟩ := ih (by omega)
      refine ⟨k, by rw [if_pos h, e1], by omega, fun i hi hi' => ?_, h3⟩
      by_cases hin : i = n
      · subst hin; exact ⟨_, e, h⟩
      · exact h2 i hi (by omega)
    · refine ⟨n + 1, by rw [if_neg h], Nat.le_refl _, fun i _ _ => by omega, fun _ => ⟨m[n], e, by simpa using h⟩⟩

/-! ### UTF-8 positions -/

theorem fwd_chunk {R : List Byte} (hR : Follow R) (i n : Nat) :
    ∀ (tl : List Byte) (x : Byte), (∀ y ∈ tl, y ≠ 0#8 ∧ lead y = false) →
      fwd (i + 1) (tl.length + 1 + n) (x :: tl ++ R) = (fwd i n R).map (· + (tl.length + 1)) := by
  intro tl
  induction tl with
  | nil =>
    intro x _
    obtain ⟨b, m', rfl, hb⟩ := hR
    rw [List.length_nil, show 0 + 1 + n = n + 1 by omega, List.cons_append, List.nil_append, fwd]
    simp only [List.head?_cons, Option.bind_eq_bind, Option.bind_some, hb, if_true]
    cases fwd i n (b :: m') <;> rfl
  | cons y tl ih =>
    intro x h
    have hy := (h y (by simp)).2
    rw [List.length_cons, show tl.length + 1 + 1 + n = (tl.length + 1 + n) + 1 by omega, List.cons_append, fwd]
    simp only [List.cons_append, List.head?_cons, Option.bind_eq_bind, Option.bind_some, hy, Bool.false_eq_true, if_false]
    have := ih y (fun z hz => h z (by simp [hz]))
    rw [List.cons_append] at this
    rw [this]
    cases fwd i n R <;> simp; omega

theorem fwd_text {R : List Byte} (hR : Follow R) : ∀ cs, Text cs → ∀ i,
    fwd i (text cs).length (text cs ++ R) = some (text (cs.take i)).length := by
  intro cs
  induction cs with
  | nil => intro _ i; cases i <;> simp [text, fwd]
  | cons c cs ih =>
    intro h i
    cases i with
    | zero => simp [text, fwd]
    | succ i =>
      obtain ⟨b, tl, e, h1, _, h3, _⟩ := enc_shape h.head.1 h.head.2
      have := fwd_chunk (follow_text h.tail hR) i (text cs).length tl b h3
      rw [List.take_succ_cons, text_cons, text_cons, List.append_assoc, List.length_append, e, List.length_cons, this,
        ih h.tail i]
      simp [e]; omega

theorem bwd_chunk (n : Nat) (R : List Byte) : ∀ (tl : List Byte) (b : Byte), lead b = true →
    (∀ y ∈ tl, lead y = false) → bwd (n + 1) ((b :: tl).reverse ++ R) = bwd n R + (tl.length + 1) := by
  intro tl b hb
  have key : ∀ (l : List Byte), (∀ y ∈ l, lead y = false) → ∀ R', bwd (n + 1) (l ++ R') = bwd (n + 1) R' + l.length := by
    intro l
    induction l with
    | nil => intro _ R'; simp
    | cons y l ih =>
      intro h R'
      rw [List.cons_append, bwd, h y (by simp)]
      simp only [Bool.false_eq_true, if_false]
      rw [ih (fun z hz => h z (by simp [hz]))]
      simp; omega
  intro h
  rw [List.reverse_cons, List.append_assoc, key _ (by simpa using h)]
  simp only [List.singleton_append, bwd, hb, if_true, List.length_reverse]
  omega

theorem bwd_text : ∀ (cs : List Nat), Text cs.reverse → ∀ n,
    bwd n (text cs.reverse).reverse = (text (cs.take n).reverse).length := by
  intro cs
  induction cs with
  | nil => intro _ n; cases n <;> simp [text, bwd]
  | cons c cs ih =>
    intro h n
    cases n with
    | zero => simp [text, bwd]
    | succ n =>
      have hc := h c (by simp)
      obtain ⟨b, tl, e, h1, h2, h3, _⟩ := enc_shape hc.1 hc.2
      have hs : ∀ (l : List Nat) (x : Nat), text (l ++ [x]) = text l ++ enc x := fun l x => by simp [text]
      rw [List.reverse_cons, hs, List.reverse_append, e, bwd_chunk n _ tl b h2 (fun y hy => (h3 y hy).2),
        ih (fun x hx => h x (by simp at hx ⊢; exact Or.inl hx)), List.take_succ_cons, List.reverse_cons, hs, e]
      simp

theorem chrSize_enc {c : Nat} (h : Scalar c ∧ c ≠ 0) (m : List Byte) : chrSize (enc c ++ m) = some (enc c).length := by
  obtain ⟨b, tl, e, _, _, _, _, h6⟩ := enc_shape h.1 h.2
  rw [← h6, e]; rfl

/-- where the characters of a text starting at byte `p` are. -/
def chars : Nat → List Nat → List (Nat × Nat)
  | _, [] => []
  | p, c :: cs => (p, (enc c).length) :: chars (p + (enc c).length) cs

theorem chars_slices (m R : List Byte) : ∀ (cs : List Nat) (p : Nat), m.drop p = text cs ++ R →
    (chars p cs).map (fun x => (m.drop x.1).take x.2) = cs.map enc := by
  intro cs
  induction cs with
  | nil => intro p _; rfl
  | cons c cs ih =>
    intro p h
    rw [chars, List.map_cons, List.map_cons, ih (p + (enc c).length)]
    · congr 1
      rw [h, text_cons, List.append_assoc, List.take_left]
    · rw [← List.drop_drop, h, text_cons, List.append_assoc, List.drop_left]

theorem chrSize_ne_none {b : Byte} {m : List Byte} : ∃ k, chrSize (b :: m) = some k := by
  simp only [chrSize, List.head?_cons, Option.bind_eq_bind, Option.bind_some]
  repeat' split
  all_goals exact ⟨_, rfl⟩

theorem each_text (m : List Byte) (b : Byte) (R : List Byte) : ∀ (cs : List Nat) (c p f : Nat), Text (c :: cs) →
    m.drop p = text (c :: cs) ++ b :: R → cs.length < f →
    eachFrom (next m (p + (text (c :: cs)).length)) f (some p, (enc c).length) = some (chars p (c :: cs)) := by
  intro cs
  induction cs with
  | nil =>
    intro c p f h hm hf
    match f, hf with
    | f + 1, hf =>
    have e : m.drop (p + (enc c).length) = b :: R := by
      rw [← List.drop_drop, hm, text_cons, List.append_assoc, List.drop_left]; rfl
    obtain ⟨k, hk⟩ := chrSize_ne_none (b := b) (m := R)
    have e2 : (text [c]).length = (enc c).length := by simp [text]
    rw [eachFrom, next, e, hk, e2]
    simp only [Option.bind_eq_bind, Option.bind_some, if_true]
    cases f <;> rfl
  | cons c' cs ih =>
    intro c p f h hm hf
    match f, hf with
    | f + 1, hf =>
    have e : m.drop (p + (enc c).length) = text (c' :: cs) ++ b :: R := by
      rw [← List.drop_drop, hm, text_cons, List.append_assoc, List.drop_left]
    have hpos := text_length_pos (c := c') (cs := cs)
    have e2 : p + (text (c :: c' :: cs)).length = (p + (enc c).length) + (text (c' :: cs)).length := by
      rw [text_cons c, List.length_append]; omega
    rw [eachFrom, next, e, text_cons c' cs, List.append_assoc, chrSize_enc h.tail.head]
    simp only [Option.bind_eq_bind, Option.bind_some]
    rw [if_neg (by rw [e2]; omega), e2, ih c' _ f h.tail e (by simp at hf; omega)]
    rfl

theorem zeach_text (m R : List Byte) : ∀ (cs : List Nat) (c p f : Nat), Text (c :: cs) →
    m.drop p = text (c :: cs) ++ 0#8 :: R → cs.length < f →
    eachFrom (znext m) f (some p, (enc c).length) = some (chars p (c :: cs)) := by
  intro cs
  have hget : ∀ (q : Nat) (b : Byte) (t : List Byte), m.drop q = b :: t → m[q]? = some b := by
    intro q b t h
    have : (m.drop q)[0]? = some b := by rw [h]; rfl
    simpa using this
  induction cs with
  | nil =>
    intro c p f h hm hf
    match f, hf with
    | f + 1, hf =>
    have e : m.drop (p + (enc c).length) = 0#8 :: R := by
      rw [← List.drop_drop, hm, text_cons, List.append_assoc, List.drop_left]; rfl
    obtain ⟨k, hk⟩ := chrSize_ne_none (b := 0#8) (m := R)
    rw [eachFrom, znext, e, hk, hget _ _ _ e]
    simp only [Option.bind_eq_bind, Option.bind_some, if_true]
    cases f <;> rfl
  | cons c' cs ih =>
    intro c p f h hm hf
    match f, hf with
    | f + 1, hf =>
    have e : m.drop (p + (enc c).length) = text (c' :: cs) ++ 0#8 :: R := by
      rw [← List.drop_drop, hm, text_cons, List.append_assoc, List.drop_left]
    obtain ⟨b, tl, e3, hb, _⟩ := enc_shape h.tail.head.1 h.tail.head.2
    have hg := hget (p + (enc c).length) b (tl ++ (text cs ++ 0#8 :: R)) (by
      rw [e, text_cons, e3]; simp)
    rw [eachFrom, znext, e, hg, text_cons c' cs, List.append_assoc, chrSize_enc h.tail.head]
    simp only [Option.bind_eq_bind, Option.bind_some]
    rw [if_neg hb, ih c' _ f h.tail e (by simp at hf; omega)]
    rfl

/-! ### hashing -/

theorem hashLoop_local : ∀ (f : Nat) (s : List Byte) (block hash : BitVec 64), s.length < f →
    ∃ h, ∀ j, hashLoop f block hash (s ++ j) s.length = some h := by
  intro f
  induction f with
  | zero => intro s _ _ h; omega
  | succ f ih =>
    intro s block hash hf
    by_cases h8 : s.length > 8
    · obtain ⟨h, hh⟩ := ih (s.drop 8) (blend block (s.take 8))
        ((hash ^^^ blend block (s.take 8)) * 0x89bb179901000193#64) (by simp; omega)
      refine ⟨h, fun j => ?_⟩
      rw [hashLoop, if_pos h8, if_pos (by simp; omega), ← hh j]
      simp only [List.take_append_of_le_length (show 8 ≤ s.length by omega),
        List.drop_append_of_le_length (show 8 ≤ s.length by omega), List.length_drop]
    · refine ⟨((hash ^^^ blend block s) * 0xb0340f4501000193#64) ^^^
          (((hash ^^^ blend block s) * 0xb0340f4501000193#64) >>> 3), fun j => ?_⟩
      rw [hashLoop, if_neg h8, if_pos (by simp), List.take_left]

theorem strcmp_spec (j1 j2 : List Byte) : ∀ s t : List Byte, 0#8 ∉ s → 0#8 ∉ t →
    ∃ r, strcmp (s ++ 0#8 :: j1) (t ++ 0#8 :: j2) = some r ∧
      r.sign = lex (s.map (·.toNat)) (t.map (·.toNat)) := by
  intro s
  induction s with
  | nil =>
    intro t _ ht
    cases t with
    | nil => exact ⟨0, by simp [strcmp], by simp [lex]⟩
    | cons b t =>
      have hb : b ≠ 0#8 := fun e => ht (by simp [e])
      have hb' : 0 < b.toNat := Nat.pos_of_ne_zero fun e => hb (toNat_inj8 (by simpa using e))
      refine ⟨((0#8).toNat : Int) - b.toNat, by simp [strcmp, Ne.symm hb], ?_⟩
      simp only [List.map_nil, List.map_cons, lex]
      exact Int.sign_eq_neg_one_iff_neg.2 (by simp; omega)
  | cons a s ih =>
    intro t hs ht
    have ha : a ≠ 0#8 := fun e => hs (by simp [e])
    have ha' : 0 < a.toNat := Nat.pos_of_ne_zero fun e => ha (toNat_inj8 (by simpa using e))
    cases t with
    | nil =>
      refine ⟨(a.toNat : Int) - (0#8).toNat, by simp [strcmp, ha], ?_⟩
      simp only [List.map_nil, List.map_cons, lex]
      exact Int.sign_eq_one_iff_pos.2 (by simp; omega)
    | cons b t =>
      simp only [List.cons_append, strcmp, List.map_cons, lex]
      by_cases hab : a = b
      · subst hab
        rw [if_neg (by simp), if_neg ha, if_neg (by omega), if_neg (by omega)]
        exact ih t (fun h => hs (by simp [h])) (fun h => ht (by simp [h]))
      · have : a.toNat ≠ b.toNat := fun e => hab (toNat_inj8 e)
        rw [if_pos hab]
        refine ⟨_, rfl, ?_⟩
        by_cases hl : a.toNat < b.toNat
        · rw [if_pos hl]; exact Int.sign_eq_neg_one_iff_neg.2 (by omega)
        · rw [if_neg hl, if_pos (by omega)]; exact Int.sign_eq_one_iff_pos.2 (by omega)

end Verif.Csview
