import Verif.Regex.SynParse
import Verif.Utf8.Case
import Mathlib.Tactic.Tauto
/- Sorting and merging the spans of a class does not change what is in it. -/
namespace Verif.Regex
open Spec
open Verif.Utf8 (casefold)

theorem sortPass_perm (p : Nat × Nat) : ∀ l, ((sortPass p l).1 :: (sortPass p l).2).Perm (p :: l)
  | [] => .refl _
  | n :: l => by
    unfold sortPass
    split
    · exact ((sortPass_perm n l).cons p |> (List.Perm.swap _ _ _).trans)
    · exact (List.Perm.swap _ _ _).trans (((sortPass_perm p l).cons n).trans (List.Perm.swap _ _ _))

theorem sortPass_le (p : Nat × Nat) : ∀ l, (sortPass p l).1.1 ≤ p.1 ∧ ∀ q ∈ (sortPass p l).2, (sortPass p l).1.1 ≤ q.1
  | [] => ⟨Nat.le_refl _, by simp [sortPass]⟩
  | n :: l => by
    unfold sortPass
    split
    · rename_i h
      obtain ⟨h1, h2⟩ := sortPass_le n l
      refine ⟨(by show (sortPass n l).1.1 ≤ _; omega), fun q hq => ?_⟩
      rcases List.mem_cons.1 hq with rfl | hq
      · show (sortPass n l).1.1 ≤ _; omega
      · exact h2 q hq
    · rename_i h
      obtain ⟨h1, h2⟩ := sortPass_le p l
      refine ⟨h1, fun q hq => ?_⟩
      rcases List.mem_cons.1 hq with rfl | hq
      · show (sortPass p l).1.1 ≤ _; omega
      · exact h2 q hq

theorem sortSpans_perm : ∀ l, (sortSpans l).Perm l := by
  intro l
  induction h : l.length generalizing l with
  | zero => rw [List.length_eq_zero_iff.1 h]; unfold sortSpans; exact .refl _
  | succ k ih =>
    cases l with
    | nil => cases h
    | cons p l =>
      unfold sortSpans
      exact ((ih _ (by rw [sortPass_length]; simpa using h)).cons _).trans (sortPass_perm p l)

theorem sortSpans_sorted : ∀ l, (sortSpans l).Pairwise (fun a b => a.1 ≤ b.1) := by
  intro l
  induction h : l.length generalizing l with
  | zero => rw [List.length_eq_zero_iff.1 h]; unfold sortSpans; exact .nil
  | succ k ih =>
    cases l with
    | nil => cases h
    | cons p l =>
      unfold sortSpans
      refine .cons (fun q hq => ?_) (ih _ (by rw [sortPass_length]; simpa using h))
      exact (sortPass_le p l).2 q ((sortSpans_perm _).mem_iff.1 hq)

/-- The character is in the span. -/
def InSpan (grp : Nat → Nat → Bool) (r : Nat) (p : Nat × Nat) : Prop := (p.1 ≤ r ∧ r ≤ p.2) ∨ (p.1 = p.2 ∧ isCode p.1 = true ∧ grp p.1 r = true)

/-- A range does not end at a code. -/
def Proper (p : Nat × Nat) : Prop := p.1 = p.2 ∨ p.2 < 0x8100002

theorem code_ge {s : Nat} (h : isCode s = true) : 0x8100002 ≤ s := by
  unfold isCode at h
  simp only [Bool.and_eq_true, decide_eq_true_eq] at h
  exact h.1

theorem merge_two {grp : Nat → Nat → Bool} {r : Nat} {n p : Nat × Nat} (hn : Proper n) (hp : Proper p) (h1 : n.1 ≤ p.1) (h2 : p.1 ≤ n.2) :
    Proper (n.1, if n.2 < p.2 then p.2 else n.2) ∧ (InSpan grp r (n.1, if n.2 < p.2 then p.2 else n.2) ↔ InSpan grp r n ∨ InSpan grp r p) := by
  obtain ⟨a, b⟩ := n
  obtain ⟨c, d⟩ := p
  simp only [Proper, InSpan] at *
  by_cases hb : b < 0x8100002
  · have hd : d < 0x8100002 := by omega
    have na : isCode a ≠ true := fun h => by have := code_ge h; omega
    have nc : isCode c ≠ true := fun h => by have := code_ge h; omega
    simp only [na, nc, Bool.false_eq_true, false_and, and_false, or_false]
    refine ⟨by split <;> omega, ⟨fun h => ?_, fun h => ?_⟩⟩
    · split at h <;> omega
    · split <;> omega
  · have hab : a = b := by omega
    subst hab
    have hc : c = a := by omega
    subst hc
    rcases hp with rfl | hp
    · simp
    · rw [if_neg (by omega)]
      refine ⟨by omega, ?_⟩
      constructor
      · exact .inl
      · rintro (h | h | h)
        · exact h
        · omega
        · omega

theorem mergeGo_in {grp : Nat → Nat → Bool} {r : Nat} : ∀ {l : List (Nat × Nat)} {n : Nat × Nat}, Proper n → (∀ p ∈ l, Proper p) → (∀ p ∈ l, n.1 ≤ p.1) → l.Pairwise (fun a b => a.1 ≤ b.1) →
    ((∃ p ∈ mergeGo n l, InSpan grp r p) ↔ InSpan grp r n ∨ ∃ p ∈ l, InSpan grp r p)
  | [], n, _, _, _, _ => by simp [mergeGo]
  | p :: l, n, hn, hl, hle, hs => by
    obtain ⟨s1, s2⟩ := List.pairwise_cons.1 hs
    unfold mergeGo
    split
    · rename_i h
      obtain ⟨m1, m2⟩ := merge_two (grp := grp) (r := r) hn (hl p (by simp)) (hle p (by simp)) h
      rw [mergeGo_in m1 (fun q hq => hl q (by simp [hq])) (fun q hq => hle q (by simp [hq])) s2, m2]
      simp [or_assoc]
    · simp only [List.mem_cons, exists_eq_or_imp]
      rw [mergeGo_in (hl p (by simp)) (fun q hq => hl q (by simp [hq])) s1 s2]

theorem merge_in {grp : Nat → Nat → Bool} {r : Nat} {l : List (Nat × Nat)} (h : ∀ p ∈ l, Proper p) : InClass grp (mergeSpans (sortSpans l)) r ↔ ∃ p ∈ l, InSpan grp r p := by
  show (∃ p ∈ mergeSpans (sortSpans l), InSpan grp r p) ↔ _
  have hp := sortSpans_perm l
  have : (∃ p ∈ l, InSpan grp r p) ↔ ∃ p ∈ sortSpans l, InSpan grp r p := by simp only [hp.mem_iff]
  rw [this]
  have h' : ∀ p ∈ sortSpans l, Proper p := fun p hq => h p (hp.mem_iff.1 hq)
  have hs := sortSpans_sorted l
  cases hl : sortSpans l with
  | nil => simp [mergeSpans]
  | cons n l' =>
    rw [hl] at hs h'
    rw [mergeSpans, mergeGo_in (h' n (by simp)) (fun q hq => h' q (by simp [hq])) (List.pairwise_cons.1 hs).1 (List.pairwise_cons.1 hs).2]
    simp

/-! ### folding -/

theorem chk10 : (Verif.Utf8.points Verif.Utf8.foldTab).all (fun c => !(Nat.beq (Verif.Utf8.foldLoopB c Verif.Utf8.foldTab) 10) && !(Nat.beq (Verif.Utf8.foldLoopB c Verif.Utf8.foldTab) 45)) = true := by
  decide +kernel

theorem fold_no {c : Nat} : (casefold c = 10 ↔ c = 10) ∧ (casefold c = 45 ↔ c = 45) := by
  have h10 : casefold 10 = 10 := by decide +kernel
  have h45 : casefold 45 = 45 := by decide +kernel
  have key : casefold c = c ∨ (casefold c ≠ 10 ∧ casefold c ≠ 45) := by
    rw [Verif.Utf8.casefold_eq]
    by_cases h : c ∈ Verif.Utf8.points Verif.Utf8.foldTab
    · right
      have := List.all_eq_true.1 chk10 c h
      rw [Verif.Utf8.foldLoopB_eq] at this
      simp only [Bool.and_eq_true, Bool.not_eq_true'] at this
      exact ⟨fun h => (by rw [h] at this; cases this.1), fun h => (by rw [h] at this; cases this.2)⟩
    · exact .inl (Verif.Utf8.foldLoop_out c _ h)
  refine ⟨⟨fun h => ?_, fun h => h ▸ h10⟩, ⟨fun h => ?_, fun h => h ▸ h45⟩⟩
  · rcases key with k | k
    · omega
    · exact absurd h k.1
  · rcases key with k | k
    · omega
    · exact absurd h k.2

theorem fold_lt {c : Nat} (h : c < 0x110000) : casefold c < 0x110000 := by
  rcases Verif.Utf8.casefold_facts c with h' | ⟨-, h', -⟩
  · omega
  · unfold Verif.Utf8.Spec.Scalar at h'; omega

theorem not_code {c : Nat} (h : c < 0x110000) : isCode c = false := by
  cases h' : isCode c with
  | false => rfl
  | true => have := code_ge h'; omega

theorem codes_holds {U : Test → Nat → Bool} {k : Nat} {t : Test} {neg : Bool} {r : Nat} (h : Codes k t) : isCode (k + if neg then 1 else 0) = true ∧ (grpOf U (k + if neg then 1 else 0) r = true ↔ t.holds U r = !neg) := by
  obtain ⟨h1, h2, h3, h4⟩ := h
  cases neg
  · refine ⟨h3, ?_⟩
    show grpOf U k r = true ↔ _
    unfold grpOf
    rw [h1]
    simp
  · refine ⟨h4, ?_⟩
    show grpOf U (k + 1) r = true ↔ _
    unfold grpOf
    rw [h2]
    simp

/-! ### the operands -/

theorem ctl_lt {l c : Nat} (h : (l, c) ∈ ctls) : c < 0x110000 := by
  have : ∀ p ∈ ctls, p.2 < 0x110000 := by decide
  exact this _ h

theorem codeS_holds {ic : Bool} {U : Test → Nat → Bool} {l : Nat} {t : Test} {neg : Bool} {r : Nat} (h : (l, t) ∈ short) : isCode (codeS l neg) = true ∧ (grpOf U (codeS l neg) (if ic then casefold r else r) = true ↔ Named ic U t neg r) := by
  obtain ⟨k, e1, e2, hk, -⟩ := codeS_spec ic h
  have : codeS l neg = k + if neg then 1 else 0 := by cases neg <;> simp [e1, e2]
  rw [this]
  exact codes_holds hk

theorem codeP_holds {ic : Bool} {U : Test → Nat → Bool} {n : List Nat} {t : Test} {neg : Bool} {r : Nat} (h : (n, t) ∈ posix) : isCode (codeP ic n neg) = true ∧ (grpOf U (codeP ic n neg) (if ic then casefold r else r) = true ↔ Named ic U t neg r) := by
  obtain ⟨k, e1, e2, hk, -⟩ := codeP_spec ic h
  have : codeP ic n neg = looseP ic k + if neg then 1 else 0 := by cases neg <;> simp [e1, e2]
  rw [this]
  exact codes_holds hk

theorem codeU_holds {ic : Bool} {U : Test → Nat → Bool} {n : List Nat} {t : Test} {neg : Bool} {r : Nat} (h : (n, t) ∈ uniProps) : isCode (codeU ic n neg) = true ∧ (grpOf U (codeU ic n neg) (if ic then casefold r else r) = true ↔ Named ic U t neg r) := by
  obtain ⟨k, e1, e2, hk, -⟩ := codeU_spec ic h
  have : codeU ic n neg = looseU ic k + if neg then 1 else 0 := by cases neg <;> simp [e1, e2]
  rw [this]
  exact codes_holds hk

/-- The text without regard to case, or as it is. -/
theorem foldc_eq {ic : Bool} {c : Nat} : foldc ic c = if ic then casefold c else c := rfl

theorem span_chr {ic : Bool} {U : Test → Nat → Bool} {c r : Nat} (hc : c < 0x110000) : InSpan (grpOf U) (foldc ic r) (foldc ic c, foldc ic c) ↔ Spec.Same ic c r := by
  have : isCode (foldc ic c) = false := by
    rw [foldc_eq]; split
    · exact not_code (fold_lt hc)
    · exact not_code hc
  simp only [InSpan, this, Bool.false_eq_true, false_and, and_false, or_false]
  simp only [Spec.Same, foldc_eq]
  split
  · exact ⟨fun h => by omega, fun h => by omega⟩
  · exact ⟨fun h => by omega, fun h => by omega⟩

theorem span_code {ic : Bool} {U : Test → Nat → Bool} {k r : Nat} {t : Test} {neg : Bool} (hr : r < 0x110000) (h : isCode k = true ∧ (grpOf U k (if ic then casefold r else r) = true ↔ Named ic U t neg r)) :
    InSpan (grpOf U) (foldc ic r) (k, k) ↔ Named ic U t neg r := by
  have := code_ge h.1
  have hf : foldc ic r < 0x110000 := by
    rw [foldc_eq]; split
    · exact fold_lt hr
    · exact hr
  rw [← foldc_eq] at h
  simp only [InSpan, h.1, true_and, h.2]
  constructor
  · rintro (h | h)
    · omega
    · exact h
  · exact .inr

theorem fold_low : ∀ c < 128, casefold c = if 65 ≤ c ∧ c ≤ 90 then c + 32 else c := by decide +kernel

theorem fold_range {a b r : Nat} (h : Alike a b) : casefold a ≤ casefold r ∧ casefold r ≤ casefold b ↔ ∃ x, a ≤ x ∧ x ≤ b ∧ casefold x = casefold r := by
  generalize casefold r = y
  have fa := fold_low a (by rcases h with h | h | h <;> omega)
  have fb := fold_low b (by rcases h with h | h | h <;> omega)
  constructor
  · rintro ⟨h1, h2⟩
    rcases h with h | h | h
    · rw [if_neg (by omega)] at fa fb
      exact ⟨y, by omega, by omega, by rw [fold_low y (by omega), if_neg (by omega)]⟩
    · rw [if_pos (by omega)] at fa fb
      exact ⟨y - 32, by omega, by omega, by rw [fold_low (y - 32) (by omega), if_pos (by omega)]; omega⟩
    · rw [if_neg (by omega)] at fa fb
      exact ⟨y, by omega, by omega, by rw [fold_low y (by omega), if_neg (by omega)]⟩
  · rintro ⟨x, h1, h2, rfl⟩
    have fx := fold_low x (by rcases h with h | h | h <;> omega)
    rcases h with h | h | h
    · rw [if_neg (by omega)] at fa fb fx; omega
    · rw [if_pos (by omega)] at fa fb fx; omega
    · rw [if_neg (by omega)] at fa fb fx; omega

theorem item_in {ic : Bool} {U : Test → Nat → Bool} {it : Item} {r : Nat} (hr : r < 0x110000) (hok : it.ok ic) : Proper (spanOf ic it) ∧ (InSpan (grpOf U) (foldc ic r) (spanOf ic it) ↔ it.has ic U r) := by
  cases it with
  | chr c => exact ⟨.inl rfl, by simpa only [spanOf, Item.has] using span_chr hok.2⟩
  | esc c => exact ⟨.inl rfl, by simpa only [spanOf, Item.has] using span_chr hok.2.2⟩
  | ctl l c => exact ⟨.inl rfl, by simpa only [spanOf, Item.has] using span_chr (ctl_lt hok)⟩
  | sym c =>
    have : c = 45 ∨ c = 94 ∨ c = 91 := hok
    exact ⟨.inl rfl, by simpa only [spanOf, Item.has] using span_chr (by omega)⟩
  | rng a b =>
    obtain ⟨hic, -, -, h1, h2⟩ := hok
    cases ic with
    | false =>
      refine ⟨.inr (by simp only [spanOf, foldc, Bool.false_eq_true, if_false]; omega), ?_⟩
      have := not_code h1
      simp [InSpan, spanOf, this, Item.has, foldc]
    | true =>
      refine ⟨.inr (by have := fold_lt h2; simp only [spanOf, foldc, if_true]; omega), ?_⟩
      have := not_code (fold_lt h1)
      simp only [InSpan, spanOf, Item.has, foldc, if_true, this, Bool.false_eq_true, false_and, and_false, or_false]
      exact fold_range (hic rfl)
  | short l t neg => exact ⟨.inl rfl, span_code hr (codeS_holds hok)⟩
  | posix n t neg => exact ⟨.inl rfl, span_code hr (codeP_holds hok)⟩
  | uni n t neg => exact ⟨.inl rfl, span_code hr (codeU_holds hok)⟩

/-- An operand that can be written, also between `\Q` and `\E`. -/
def Sur.fine (ic : Bool) (a : Sur) : Prop := a.ok ic ∨ ∃ c, a = .lit c ∧ c < 0x110000

theorem fold_char {ic : Bool} {r c : Nat} (h : c = 10 ∨ c = 45) : foldc ic r = c ↔ r = c := by
  rw [foldc_eq]
  split
  · rcases h with rfl | rfl
    · exact fold_no.1
    · exact fold_no.2
  · exact Iff.rfl

theorem char1_congr {cs : List Nat} {p q : Nat → Prop} {i j : Nat} (h : ∀ r ∈ cs, p r ↔ q r) : Char1 cs p i j ↔ Char1 cs q i j := by
  unfold Char1
  constructor
  · rintro ⟨c, h1, h2, h3⟩; exact ⟨c, h1, (h c (List.mem_of_getElem? h1)).1 h2, h3⟩
  · rintro ⟨c, h1, h2, h3⟩; exact ⟨c, h1, (h c (List.mem_of_getElem? h1)).2 h2, h3⟩

theorem lit_atom {ic : Bool} {U : Test → Nat → Bool} {cs : List Nat} {c i j : Nat} (hc : c < 0x110000) :
    Atom ic (grpOf U) cs (if ic then .irune (casefold c) else .rune c) i j ↔ Char1 cs (Spec.Same ic c) i j := by
  cases ic
  · simp only [Bool.false_eq_true, if_false, Atom]
    exact char1_congr fun r _ => by simp [Lit, not_code hc, Spec.Same]
  · simp only [if_true, Atom]
    exact char1_congr fun r _ => by simp only [Lit, not_code (fold_lt hc), Bool.false_eq_true, if_false, Spec.Same, if_true]

theorem code_atom {ic : Bool} {U : Test → Nat → Bool} {cs : List Nat} {k i j : Nat} {t : Test} {neg : Bool}
    (h : ∀ r, isCode k = true ∧ (grpOf U k (if ic then casefold r else r) = true ↔ Named ic U t neg r)) :
    Atom ic (grpOf U) cs (if ic then .irune k else .rune k) i j ↔ Char1 cs (Named ic U t neg) i j := by
  cases ic
  · simp only [Bool.false_eq_true, if_false, Atom]
    refine char1_congr fun r _ => ?_
    have := h r
    simp only [Bool.false_eq_true, if_false] at this
    simp [Lit, this.1, this.2]
  · simp only [if_true, Atom]
    refine char1_congr fun r _ => ?_
    have := h r
    simp only [if_true] at this
    simp [Lit, this.1, this.2]

/-- What is in the spans of a class. -/
theorem class_in {ic : Bool} {U : Test → Nat → Bool} {neg dash : Bool} {items : List Item} (h : ∀ it ∈ items, it.ok ic) {r : Nat} (hr : r < 0x110000) :
    InClass (grpOf U) (mergeSpans (sortSpans ((if neg then [(10, 10)] else []) ++ items.map (spanOf ic) ++ (if dash then [(45, 45)] else [])))) (if ic then casefold r else r) ↔
      (neg = true ∧ r = 10) ∨ (∃ it ∈ items, it.has ic U r) ∨ (dash = true ∧ r = 45) := by
  have h10 : InSpan (grpOf U) (foldc ic r) (10, 10) ↔ r = 10 := by
    simp only [InSpan, not_code (show 10 < 0x110000 by omega), Bool.false_eq_true, false_and, and_false, or_false]
    rw [← fold_char (ic := ic) (r := r) (.inl rfl)]; omega
  have h45 : InSpan (grpOf U) (foldc ic r) (45, 45) ↔ r = 45 := by
    simp only [InSpan, not_code (show 45 < 0x110000 by omega), Bool.false_eq_true, false_and, and_false, or_false]
    rw [← fold_char (ic := ic) (r := r) (.inr rfl)]; omega
  rw [merge_in, ← foldc_eq]
  · simp only [List.mem_append, List.mem_map]
    constructor
    · rintro ⟨p, (hp | ⟨it, hit, rfl⟩) | hp, hs⟩
      · split at hp
        · rename_i hn
          simp only [List.mem_cons, List.not_mem_nil, or_false] at hp
          subst hp
          exact .inl ⟨hn, h10.1 hs⟩
        · cases hp
      · exact .inr (.inl ⟨it, hit, (item_in hr (h it hit)).2.1 hs⟩)
      · split at hp
        · rename_i hn
          simp only [List.mem_cons, List.not_mem_nil, or_false] at hp
          subst hp
          exact .inr (.inr ⟨hn, h45.1 hs⟩)
        · cases hp
    · rintro (⟨hn, hr'⟩ | ⟨it, hit, hs⟩ | ⟨hn, hr'⟩)
      · exact ⟨(10, 10), .inl (.inl (by simp [hn])), h10.2 hr'⟩
      · exact ⟨_, .inl (.inr ⟨it, hit, rfl⟩), (item_in hr (h it hit)).2.2 hs⟩
      · exact ⟨(45, 45), .inr (by simp [hn]), h45.2 hr'⟩
  · intro p hp
    simp only [List.mem_append, List.mem_map] at hp
    rcases hp with (hp | ⟨it, hit, rfl⟩) | hp
    · split at hp
      · simp only [List.mem_cons, List.not_mem_nil, or_false] at hp; subst hp; exact .inl rfl
      · cases hp
    · exact (item_in (U := U) hr (h it hit)).1
    · split at hp
      · simp only [List.mem_cons, List.not_mem_nil, or_false] at hp; subst hp; exact .inl rfl
      · cases hp

theorem atom_has {ic dotall : Bool} {U : Test → Nat → Bool} {cs : List Nat} (hcs : ∀ r ∈ cs, r < 0x110000) {a : Sur} (ha : Sur.fine ic a) (i j : Nat) :
    Atom ic (grpOf U) cs (opOf ic dotall a) i j ↔ a.has ic dotall U cs i j := by
  cases a with
  | chr c =>
    simp only [opOf, Sur.has]
    rcases ha with h | ⟨_, h, -⟩
    · exact lit_atom h.2
    · cases h
  | lit c =>
    simp only [opOf, Sur.has]
    rcases ha with h | ⟨_, h, h'⟩
    · exact h.elim
    · cases h; exact lit_atom h'
  | esc c =>
    simp only [opOf, Sur.has]
    rcases ha with h | ⟨_, h, -⟩
    · exact lit_atom h.2.2
    · cases h
  | ctl l c =>
    simp only [opOf, Sur.has]
    rcases ha with h | ⟨_, h, -⟩
    · exact lit_atom (ctl_lt h)
    · cases h
  | hex ds =>
    simp only [opOf, Sur.has]
    rcases ha with h | ⟨_, h, -⟩
    · exact lit_atom h.2.2.1
    · cases h
  | short l t neg =>
    rcases ha with h | ⟨_, h, -⟩
    · simp only [opOf, Sur.has]
      exact code_atom fun r => codeS_holds h
    · cases h
  | uni n t neg =>
    rcases ha with h | ⟨_, h, -⟩
    · simp only [opOf, Sur.has]
      exact code_atom fun r => codeU_holds h
    · cases h
  | dot =>
    cases dotall
    · simp only [opOf, Bool.false_eq_true, if_false, Atom, Sur.has]
      exact char1_congr fun r _ => by simp
    · simp only [opOf, if_true, Atom, Sur.has]
      exact char1_congr fun r _ => by simp
  | bol | eol | bos | eos | eoz => exact Iff.rfl
  | mode b => cases b <;> exact Iff.rfl
  | wb =>
    have : grpOf U wordCode = Test.uword.holds U := by
      funext r
      have hc : codeTest wordCode = some (.uword, false) := by decide +kernel
      simp [grpOf, hc]
    simp only [opOf, Atom, Sur.has, this]
  | cls neg items dash =>
    rcases ha with ⟨-, h⟩ | ⟨_, h, -⟩
    · simp only [opOf, Atom, Sur.has]
      have hin := fun r hr => class_in (U := U) (neg := neg) (dash := dash) h.1 (hcs r hr)
      generalize hspans : mergeSpans _ = spans at hin ⊢
      clear hspans
      cases neg
      · rw [if_neg (by simp)]
        refine char1_congr fun r hr => ?_
        rw [hin r hr]; simp
      · rw [if_pos rfl]
        refine char1_congr fun r hr => ?_
        rw [hin r hr]
        simp only [true_and, Bool.true_eq_false, iff_false]
        constructor
        · intro h
          exact ⟨fun e => h (.inl e), fun it hit hs => h (.inr (.inl ⟨it, hit, hs⟩)), fun e => h (.inr (.inr e))⟩
        · rintro ⟨h1, h2, h3⟩ (h | ⟨it, hit, hs⟩ | h)
          · exact h1 h
          · exact h2 it hit hs
          · exact h3 h
    · cases h

end Verif.Regex
