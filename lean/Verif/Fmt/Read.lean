import Verif.Fmt.Mono
/-
What `printf` reads in the formats the code produces.
-/
namespace Verif.Fmt
open Spec

/-! ## Reading back a conversion -/

theorem takeWhile_stop {α : Type} {p : α → Bool} {l r : List α} (hl : ∀ x ∈ l, p x = true)
    (hr : ∀ x, r.head? = some x → p x = false) :
    (l ++ r).takeWhile p = l ∧ (l ++ r).dropWhile p = r := by
  induction l with
  | nil =>
    cases r with
    | nil => simp
    | cons x xs =>
      have := hr x rfl
      simp [this]
  | cons x xs ih =>
    have hx := hl x (by simp)
    obtain ⟨h1, h2⟩ := ih (fun y hy => hl y (by simp [hy]))
    simp [hx, h1, h2]

theorem readNum_none {r : List Char} (h : ∀ x, r.head? = some x → x ≠ '*' ∧ x.isDigit = false) :
    readNum r = (none, r) := by
  unfold readNum
  split
  · next r' => exact absurd rfl (h '*' rfl).1
  · next h0 =>
    obtain ⟨h1, h2⟩ := takeWhile_stop (p := Char.isDigit) (l := []) (r := r) (by simp)
      (fun x hx => (h x hx).2)
    simp only [List.nil_append] at h1 h2
    simp [h1]

/-- Reading a number that is followed by something else. -/
theorem readNum_show {w r : List Char} (hw : IsNum w)
    (h : ∀ x, r.head? = some x → x ≠ '*' ∧ x.isDigit = false) : readNum (w ++ r) = (num w none, r) := by
  unfold num
  by_cases h0 : w = []
  · subst h0
    simp only [if_true, List.nil_append]
    exact readNum_none h
  · rw [if_neg h0]
    by_cases h1 : w = ['*']
    · subst h1; simp [readNum]
    · rw [if_neg h1]
      have hd : ∀ c ∈ w, c.isDigit = true := by
        rcases hw with hw | hw
        · exact absurd hw h1
        · exact hw
      obtain ⟨g1, g2⟩ := takeWhile_stop (p := Char.isDigit) (l := w) (r := r) hd (fun x hx => (h x hx).2)
      unfold readNum
      split
      · next r' heq =>
        cases w with
        | nil => exact absurd rfl h0
        | cons c cs =>
          simp only [List.cons_append, List.cons.injEq] at heq
          have := hd c (by simp)
          rw [heq.1] at this
          exact absurd this (by decide)
      · simp only [g1, g2, if_neg h0]

/-- The text of a precision. -/
def precText : Option (List Char) → List Char
  | none => []
  | some p => '.' :: p

/-- The meaning of a precision. -/
def precNum : Option (List Char) → Option Num
  | none => none
  | some p => num p (some (.lit 0))

theorem num_default (p : List Char) (d : Num) : (num p none).getD d = (num p (some d)).getD d := by
  unfold num
  split
  · rfl
  · split <;> rfl

theorem num_some (p : List Char) (d : Num) : num p (some d) = some ((num p none).getD d) := by
  unfold num
  split
  · rfl
  · split <;> rfl

theorem readPrec_show {p : Option (List Char)} {r : List Char} (hp : ∀ q, p = some q → IsNum q)
    (h : ∀ x, r.head? = some x → x ≠ '*' ∧ x.isDigit = false ∧ x ≠ '.') :
    readPrec (precText p ++ r) = (precNum p, r) := by
  cases p with
  | none =>
    simp only [precText, precNum, List.nil_append]
    unfold readPrec
    split
    · next r' => exact absurd rfl (h '.' rfl).2.2
    · rfl
  | some q =>
    simp only [precText, precNum, List.cons_append, readPrec]
    rw [readNum_show (hp q rfl) (fun x hx => ⟨(h x hx).1, (h x hx).2.1⟩), num_some]

theorem readLen_show {l : List Char} {c : Char} {r : List Char} (hl : l ∈ lens) (hc : c ∈ convChars) :
    readLen (l ++ c :: r) = (l, c :: r) := by
  simp only [lens, List.mem_cons, List.not_mem_nil, or_false] at hl
  have hcc : c ∈ ['d', 'i', 'o', 'u', 'x', 'X', 'f', 'F', 'e', 'E', 'g', 'G', 'a', 'A', 'c', 's', 'p', 'n'] := hc
  simp only [List.mem_cons, List.not_mem_nil, or_false] at hcc
  rcases hl with rfl | rfl | rfl | rfl | rfl | rfl | rfl | rfl | rfl <;>
  rcases hcc with rfl | rfl | rfl | rfl | rfl | rfl | rfl | rfl | rfl | rfl | rfl | rfl | rfl | rfl | rfl |
    rfl | rfl | rfl <;> rfl

/-- The first character of a length modifier and specifier. -/
theorem head_conv {l : List Char} {c : Char} {r : List Char} (hl : l ∈ lens) (hc : c ∈ convChars) :
    ∀ x, (l ++ c :: r).head? = some x →
      x ≠ '*' ∧ x.isDigit = false ∧ x ≠ '.' ∧ x ∉ flagChars ∧ x ≠ '%' := by
  have h1 : ∀ l ∈ lens, ∀ x ∈ l, x ≠ '*' ∧ x.isDigit = false ∧ x ≠ '.' ∧ x ∉ flagChars ∧ x ≠ '%' := by decide
  have h2 : ∀ x ∈ convChars, x ≠ '*' ∧ x.isDigit = false ∧ x ≠ '.' ∧ x ∉ flagChars ∧ x ≠ '%' := by decide
  intro x hx
  cases l with
  | nil => simp at hx; rw [← hx]; exact h2 c hc
  | cons d ds => simp at hx; rw [← hx]; exact h1 _ hl d (by simp)

theorem digit_not_flag {c : Char} (h : c.isDigit = true) (h0 : c ≠ '0') :
    c ∉ flagChars ∧ c ≠ '%' ∧ c ≠ '.' ∧ c ≠ '*' := by
  have hf : flagChars = ['-', '+', ' ', '#', '0'] := rfl
  rw [hf]
  refine ⟨?_, ?_, ?_, ?_⟩
  · intro hm
    simp only [List.mem_cons, List.not_mem_nil, or_false] at hm
    rcases hm with rfl | rfl | rfl | rfl | rfl
    · exact absurd h (by decide)
    · exact absurd h (by decide)
    · exact absurd h (by decide)
    · exact absurd h (by decide)
    · exact h0 rfl
  all_goals rintro rfl; exact absurd h (by decide)

/-- Reading back a whole conversion. -/
theorem readConv_show {F W L : List Char} {P : Option (List Char)} {c : Char} {r : List Char}
    (hF : ∀ x ∈ F, x ∈ flagChars) (hW : IsNum W) (hW0 : W.head? ≠ some '0')
    (hP : ∀ q, P = some q → IsNum q) (hL : L ∈ lens) (hc : c ∈ convChars) :
    readConv (F ++ (W ++ (precText P ++ (L ++ c :: r)))) =
      some ({ left := '-' ∈ F, plus := '+' ∈ F, space := ' ' ∈ F, alt := '#' ∈ F, zero := '0' ∈ F
              width := num W none, prec := precNum P, len := L, conv := c }, r) := by
  have hp : ∀ x, (precText P ++ (L ++ c :: r)).head? = some x → x ≠ '*' ∧ x.isDigit = false ∧ x ∉ flagChars := by
    intro x hx
    cases P with
    | none =>
      obtain ⟨a1, a2, _, a4, _⟩ := head_conv (r := r) hL hc x hx
      exact ⟨a1, a2, a4⟩
    | some q => simp [precText] at hx; subst hx; decide
  have hw : ∀ x, (W ++ (precText P ++ (L ++ c :: r))).head? = some x → x ∉ flagChars := by
    intro x hx
    cases hW' : W with
    | nil => rw [hW'] at hx; exact (hp x (by simpa using hx)).2.2
    | cons d ds =>
      rw [hW'] at hx hW0
      simp at hx hW0
      subst hx
      rcases hW with hW | hW
      · rw [hW'] at hW; simp at hW; rw [hW.1]; decide
      · exact (digit_not_flag (hW d (by simp [hW'])) hW0).1
  obtain ⟨g1, g2⟩ := takeWhile_stop (p := fun x => decide (x ∈ flagChars)) (l := F)
    (r := W ++ (precText P ++ (L ++ c :: r))) (by simpa using hF) (by simpa using hw)
  unfold readConv
  simp only [g1, g2]
  rw [readNum_show hW (fun x hx => ⟨(hp x hx).1, (hp x hx).2.1⟩)]
  simp only
  rw [readPrec_show hP (fun x hx => ⟨(head_conv hL hc x hx).1, (head_conv hL hc x hx).2.1,
    (head_conv hL hc x hx).2.2.1⟩)]
  simp only
  rw [readLen_show hL hc]
  simp only [if_pos hc]

/-! ## Fields -/

theorem modsOut_id {l : List Char} (h : ∀ c ∈ l, c ≠ '<' ∧ c ≠ '>' ∧ c ≠ '-') : modsOut l = l := by
  induction l with
  | nil => rfl
  | cons c cs ih =>
    obtain ⟨h1, h2, h3⟩ := h c (by simp)
    rw [modsOut_cons, ih (fun x hx => h x (by simp [hx])), if_neg h1, if_neg (by tauto)]
    rfl

theorem modsOut_flags {l : List Char} (h : ∀ c ∈ l, c ∈ flagChars) : modsOut l = l.filter (· ≠ '-') := by
  induction l with
  | nil => rfl
  | cons c cs ih =>
    have hc := h c (by simp)
    have h1 : c ≠ '<' := by rintro rfl; exact absurd hc (by decide)
    have h2 : c ≠ '>' := by rintro rfl; exact absurd hc (by decide)
    rw [modsOut_cons, ih (fun x hx => h x (by simp [hx])), if_neg h1]
    by_cases h3 : c = '-'
    · simp [h3]
    · rw [if_neg (by tauto)]; simp [h3]

/-- The alignment as it is written. -/
def alignText : Option Bool → List Char
  | none => []
  | some true => ['<']
  | some false => ['>']

def convText : Option (List Char × Char) → List Char
  | none => []
  | some (l, c) => l ++ [c]

theorem show_eq (m : Mods) :
    m.show = alignText m.align ++ (m.flags ++ (m.width ++ (precText m.prec ++ convText m.conv))) := by
  unfold Mods.show alignText precText convText
  rcases m with ⟨al, fl, w, p, cv⟩
  rcases al with _ | _ | _ <;> rcases p with _ | p <;> rcases cv with _ | ⟨l, c⟩ <;> simp

theorem num_chars {w : List Char} (hw : IsNum w) {c : Char} (hc : c ∈ w) :
    c ≠ '<' ∧ c ≠ '>' ∧ c ≠ '-' ∧ c ∉ convs ∧ c ≠ nul ∧ c ≠ '}' := by
  rcases hw with rfl | hw
  · simp at hc; subst hc; decide
  · have h := hw c hc
    refine ⟨?_, ?_, ?_, ?_, ?_, ?_⟩
    · rintro rfl; exact absurd h (by decide)
    · rintro rfl; exact absurd h (by decide)
    · rintro rfl; exact absurd h (by decide)
    · intro hm
      have : ∀ x ∈ convs, x.isDigit = false := by decide
      rw [this c hm] at h; cases h
    · rintro rfl; exact absurd h (by decide)
    · rintro rfl; exact absurd h (by decide)

theorem prec_chars {p : Option (List Char)} (hp : ∀ q, p = some q → IsNum q) {c : Char} (hc : c ∈ precText p) :
    c ≠ '<' ∧ c ≠ '>' ∧ c ≠ '-' ∧ c ∉ convs ∧ c ≠ nul ∧ c ≠ '}' := by
  cases p with
  | none => simp [precText] at hc
  | some q =>
    simp only [precText, List.mem_cons] at hc
    rcases hc with rfl | hc
    · decide
    · exact num_chars (hp q rfl) hc

theorem conv_chars {cv : Option (List Char × Char)} (h : ∀ l c, cv = some (l, c) → l ∈ lens ∧ c ∈ convChars)
    {c : Char} (hc : c ∈ convText cv) : c ≠ '<' ∧ c ≠ '>' ∧ c ≠ '-' ∧ c ≠ nul ∧ c ≠ '}' := by
  have h1 : ∀ l ∈ lens, ∀ x ∈ l, x ≠ '<' ∧ x ≠ '>' ∧ x ≠ '-' ∧ x ≠ nul ∧ x ≠ '}' := by decide
  have h2 : ∀ x ∈ convChars, x ≠ '<' ∧ x ≠ '>' ∧ x ≠ '-' ∧ x ≠ nul ∧ x ≠ '}' := by decide
  cases cv with
  | none => simp [convText] at hc
  | some lc =>
    obtain ⟨l, d⟩ := lc
    obtain ⟨g1, g2⟩ := h l d rfl
    simp only [convText, List.mem_append, List.mem_singleton] at hc
    rcases hc with hc | rfl
    · exact h1 l g1 c hc
    · exact h2 c g2

theorem show_chars {m : Mods} (hm : m.Ok) {c : Char} (hc : c ∈ m.show) : c ≠ nul ∧ c ≠ '}' := by
  rw [show_eq] at hc
  simp only [List.mem_append] at hc
  rcases hc with hc | hc | hc | hc | hc
  · revert hc
    rcases m.align with _ | _ | _ <;> simp [alignText] <;> rintro rfl <;> decide
  · have : ∀ x ∈ flagChars, x ≠ nul ∧ x ≠ '}' := by decide
    exact this c (hm.flags c hc)
  · exact ⟨(num_chars hm.width hc).2.2.2.2.1, (num_chars hm.width hc).2.2.2.2.2⟩
  · exact ⟨(prec_chars hm.prec hc).2.2.2.2.1, (prec_chars hm.prec hc).2.2.2.2.2⟩
  · exact ⟨(conv_chars hm.conv hc).2.2.2.1, (conv_chars hm.conv hc).2.2.2.2⟩

theorem modsOut_show {m : Mods} (hm : m.Ok) : modsOut m.show =
    (if m.align = some true then ['-'] else []) ++ (m.flags.filter (· ≠ '-') ++ (m.width ++
      (precText m.prec ++ convText m.conv))) := by
  rw [show_eq, modsOut_append, modsOut_append, modsOut_append, modsOut_append, modsOut_flags hm.flags,
    modsOut_id (fun c hc => ⟨(num_chars hm.width hc).1, (num_chars hm.width hc).2.1, (num_chars hm.width hc).2.2.1⟩),
    modsOut_id (fun c hc => ⟨(prec_chars hm.prec hc).1, (prec_chars hm.prec hc).2.1, (prec_chars hm.prec hc).2.2.1⟩),
    modsOut_id (fun c hc => ⟨(conv_chars hm.conv hc).1, (conv_chars hm.conv hc).2.1, (conv_chars hm.conv hc).2.2.1⟩)]
  congr 1
  rcases m.align with _ | _ | _ <;> rfl

theorem gt_mem {m : Mods} (hm : m.Ok) : '>' ∈ m.show ↔ m.align = some false := by
  rw [show_eq]
  simp only [List.mem_append]
  constructor
  · rintro (h | h | h | h | h)
    · revert h
      rcases m.align with _ | _ | _ <;> simp [alignText]
    · exact absurd (hm.flags _ h) (by decide)
    · exact absurd rfl (num_chars hm.width h).2.1
    · exact absurd rfl (prec_chars hm.prec h).2.1
    · exact absurd rfl (conv_chars hm.conv h).2.1
  · intro h; rw [h]; exact .inl (by decide)

theorem natural_ok (t : CType) : (natural t).1 ∈ lens ∧ (natural t).2 ∈ convChars ∧
    strip (fc t) = (natural t).1 ++ [(natural t).2] := by
  cases t <;> decide

theorem convs_iff (c : Char) : c ∈ convs ↔ c ∈ convChars := by
  have h1 : ∀ x ∈ convs, x ∈ convChars := by decide
  have h2 : ∀ x ∈ convChars, x ∈ convs := by decide
  exact ⟨h1 c, h2 c⟩

/-- The default precision as a text. -/
def precDefault : CType → Option (List Char)
  | .float => some ['8']
  | .double => some ['1', '6']
  | .ldouble => some ['1', '6']
  | _ => none

theorem precDefault_ok (t : CType) : precOut true (fc t) = precText (precDefault t) ∧
    precNum (precDefault t) = defaultPrec t ∧ (∀ q, precDefault t = some q → IsNum q) := by
  refine ⟨by cases t <;> rfl, by cases t <;> rfl, ?_⟩
  intro q hq
  right
  cases t <;> simp [precDefault] at hq <;> subst hq <;> decide

theorem precOut_false (a : List Char) : precOut false a = [] := by
  unfold precOut
  split <;> rfl

/-- The conversion a field is turned into. -/
theorem fieldOut_eq {m : Mods} (hm : m.Ok) {colon : Bool} {t : CType} :
    ∃ F P, (∀ x ∈ F, x ∈ flagChars) ∧ (∀ q, P = some q → IsNum q) ∧
      fieldOut colon m.show (fc t) =
        '%' :: (F ++ (m.width ++ (precText P ++ ((m.conv.getD (natural t)).1 ++ [(m.conv.getD (natural t)).2])))) ∧
      (m.conv.getD (natural t)).1 ∈ lens ∧ (m.conv.getD (natural t)).2 ∈ convChars ∧
      meaning m t = { left := '-' ∈ F, plus := '+' ∈ F, space := ' ' ∈ F, alt := '#' ∈ F, zero := '0' ∈ F
                      width := num m.width none, prec := precNum P, len := (m.conv.getD (natural t)).1
                      conv := (m.conv.getD (natural t)).2 } := by
  obtain ⟨n1, n2, n3⟩ := natural_ok t
  obtain ⟨d1, d2, d3⟩ := precDefault_ok t
  set lc := m.conv.getD (natural t) with hlc
  have hl : lc.1 ∈ lens ∧ lc.2 ∈ convChars := by
    rw [hlc]
    cases hcv : m.conv with
    | none => exact ⟨n1, n2⟩
    | some x => exact hm.conv x.1 x.2 hcv
  set P : Option (List Char) := if m.show = [] then precDefault t else m.prec with hP
  have hbody : fieldBody colon m.show (fc t) =
      (if m.align = some true then ['-'] else []) ++ (m.flags.filter (· ≠ '-') ++ (m.width ++
        (precText P ++ (lc.1 ++ [lc.2])))) := by
    unfold fieldBody
    rw [modsOut_show hm]
    by_cases hs : m.show = []
    · have he := hs
      rw [show_eq] at he
      simp only [List.append_eq_nil_iff] at he
      obtain ⟨e1, e2, e3, e4, e5⟩ := he
      have hcv : m.conv = none := by
        cases hcv : m.conv with
        | none => rfl
        | some x => rw [hcv] at e5; simp [convText] at e5
      have hal : m.align = none := by
        rcases hal : m.align with _ | _ | _
        · rfl
        · rw [hal] at e1; simp [alignText] at e1
        · rw [hal] at e1; simp [alignText] at e1
      have hd : ((m.show.getLast?).getD (if colon then ':' else '{')) ∉ convs := by
        rw [hs]; cases colon <;> decide
      rw [if_neg hd, hP, if_pos hs, hlc, hcv, e4, e3, e2, hal]
      simp only [hs, decide_true, d1, n3, convText]
      simp
    · have hfalse : decide (m.show = []) = false := by simp [hs]
      rw [hfalse, precOut_false, hP, if_neg hs]
      cases hcv : m.conv with
      | none =>
        have hd : ((m.show.getLast?).getD (if colon then ':' else '{')) ∉ convs := by
          have hlast : ∃ x, m.show.getLast? = some x := by
            cases hx : m.show.getLast? with
            | none => exact absurd (List.getLast?_eq_none_iff.1 hx) hs
            | some x => exact ⟨x, rfl⟩
          obtain ⟨x, hx⟩ := hlast
          rw [hx, Option.getD_some]
          have hmem := List.mem_of_getLast? hx
          rw [show_eq, hcv] at hmem
          simp only [List.mem_append, convText, List.not_mem_nil, or_false] at hmem
          rcases hmem with h | h | h | h
          · revert h
            rcases m.align with _ | _ | _ <;> simp [alignText] <;> rintro rfl <;> decide
          · have : ∀ x ∈ flagChars, x ∉ convs := by decide
            exact this x (hm.flags x h)
          · exact (num_chars hm.width h).2.2.2.1
          · exact (prec_chars hm.prec h).2.2.2.1
        rw [if_neg hd, hlc, hcv]
        simp [n3, convText]
      | some x =>
        have hc2 := hm.conv x.1 x.2 hcv
        have hlast : m.show.getLast? = some x.2 := by
          rw [show_eq, hcv]
          simp [convText]
        rw [hlast, Option.getD_some, if_pos ((convs_iff _).2 hc2.2), hlc, hcv]
        simp [convText]
  have hlast : (fieldBody colon m.show (fc t)).getLast? = some lc.2 := by
    rw [hbody]; simp
  refine ⟨(if m.align ≠ some false ∧ (lc.2 = 's' ∨ lc.2 = 'c') then ['-'] else []) ++
    ((if m.align = some true then ['-'] else []) ++ m.flags.filter (· ≠ '-')), P, ?_, ?_, ?_, hl.1, hl.2, ?_⟩
  · intro x hx
    simp only [List.mem_append] at hx
    rcases hx with hx | hx | hx
    · split at hx
      · simp at hx; subst hx; decide
      · simp at hx
    · split at hx
      · simp at hx; subst hx; decide
      · simp at hx
    · exact hm.flags x ((List.mem_filter.1 hx).1)
  · intro q hq
    rw [hP] at hq
    split at hq
    · exact d3 q hq
    · exact hm.prec q hq
  · unfold fieldOut
    rw [hlast]
    have h1 : ('>' ∉ m.show) ↔ m.align ≠ some false := not_congr (gt_mem hm)
    simp only [h1, Option.some.injEq, hbody]
    split <;> simp
  · have hflag : ∀ c, c ≠ '-' → ((c ∈ (if m.align ≠ some false ∧ (lc.2 = 's' ∨ lc.2 = 'c') then ['-'] else []) ++
        ((if m.align = some true then ['-'] else []) ++ m.flags.filter (· ≠ '-'))) ↔ c ∈ m.flags) := by
      intro c hc
      simp only [List.mem_append, List.mem_filter]
      constructor
      · rintro (h | h | h)
        · split at h <;> simp at h; exact absurd h hc
        · split at h <;> simp at h; exact absurd h hc
        · exact h.1
      · intro h; exact .inr (.inr ⟨h, by simpa using hc⟩)
    have hdash : ('-' ∈ (if m.align ≠ some false ∧ (lc.2 = 's' ∨ lc.2 = 'c') then ['-'] else []) ++
        ((if m.align = some true then ['-'] else []) ++ m.flags.filter (· ≠ '-'))) ↔
        (m.align = some true ∨ m.align = none ∧ (lc.2 = 's' ∨ lc.2 = 'c')) := by
      simp only [List.mem_append, List.mem_filter]
      rcases m.align with _ | _ | _
      · by_cases h : lc.2 = 's' ∨ lc.2 = 'c' <;> simp [h]
      · simp
      · simp
    unfold meaning
    rw [← hlc]
    simp only [Conv.mk.injEq]
    refine ⟨?_, ?_, ?_, ?_, ?_, trivial, ?_, trivial, trivial⟩
    · rw [decide_eq_decide]; exact hdash.symm
    · rw [decide_eq_decide]; exact (hflag _ (by decide)).symm
    · rw [decide_eq_decide]; exact (hflag _ (by decide)).symm
    · rw [decide_eq_decide]; exact (hflag _ (by decide)).symm
    · rw [decide_eq_decide]; exact (hflag _ (by decide)).symm
    · rw [hP]
      split
      · rw [d2]
      · cases m.prec <;> rfl

/-! ## Whole formats -/

theorem readFmt_conv {fuel : Nat} {x : Char} {r : List Char} (hx : x ≠ '%') :
    readFmt (fuel + 1) ('%' :: x :: r) =
      (readConv (x :: r)).bind fun y => (readFmt fuel y.2).map (.conv y.1 :: ·) := by
  rw [readFmt]
  rintro r' h
  simp only [List.cons.injEq] at h
  exact hx h.1

theorem readFmt_lit {fuel : Nat} {c : Char} {r : List Char} (hc : c ≠ '%') :
    readFmt (fuel + 1) (c :: r) = (readFmt fuel r).map (.lit c :: ·) := by
  rw [readFmt]
  · rintro r' h _
    exact hc h
  · intro h; exact hc h

theorem readFmt_outs : ∀ (es : List Elem) (ts : List CType) (fuel : Nat), (∀ e ∈ es, e.Ok) →
    uses (es.map Elem.piece) ≤ ts.length →
    (outs (es.map Elem.piece) (ts.map fc)).length < fuel →
    readFmt fuel (outs (es.map Elem.piece) (ts.map fc)) = some (meant es ts)
  | [], ts, fuel, _, _, hf => by
    cases fuel with
    | zero => omega
    | succ f => simp [outs, readFmt, meant]
  | .lit c :: es, ts, fuel, hok, hu, hf => by
    cases fuel with
    | zero => omega
    | succ f =>
      simp only [List.map_cons, Elem.piece, outs, meant] at hf ⊢
      have ih := fun f hf => readFmt_outs es ts f (fun e he => hok e (by simp [he]))
        (by simpa [uses, Elem.piece, Piece.uses] using hu) hf
      by_cases hc : c = '%'
      · subst hc
        rw [if_pos rfl] at hf ⊢
        simp only [List.cons_append, List.nil_append, List.length_cons] at hf ⊢
        rw [readFmt, ih f (by omega)]
        rfl
      · rw [if_neg hc] at hf ⊢
        simp only [List.cons_append, List.nil_append, List.length_cons] at hf ⊢
        rw [readFmt_lit hc, ih f (by omega)]
        rfl
  | .field colon m :: es, ts, fuel, hok, hu, hf => by
    cases fuel with
    | zero => omega
    | succ f =>
      have hm : m.Ok := (hok (.field colon m) (by simp)).1
      simp only [List.map_cons, Elem.piece, outs, meant] at hf ⊢
      set u := (Piece.field colon m.show).uses with hu'
      have hpos : 1 ≤ u := by rw [hu']; simp [Piece.uses]
      have hle : u + uses (es.map Elem.piece) ≤ ts.length := by simpa [uses, Elem.piece] using hu
      obtain ⟨t, ht⟩ : ∃ t, ts[u - 1]? = some t := by
        rw [List.getElem?_eq_getElem (by omega)]; exact ⟨_, rfl⟩
      have ih := fun f hf => readFmt_outs es (ts.drop u) f (fun e he => hok e (by simp [he]))
        (by rw [List.length_drop]; omega) hf
      rw [List.getElem?_map, ht] at hf ⊢
      simp only [Option.map_some, Option.getD_some, ← List.map_drop, List.length_append] at hf ⊢
      obtain ⟨F, P, hF, hP, hout, hL, hc, hmean⟩ := fieldOut_eq (colon := colon) (t := t) hm
      have hconv := readConv_show (r := outs (es.map Elem.piece) ((ts.drop u).map fc)) hF hm.width hm.nozero hP hL hc
      rw [hout] at hf ⊢
      simp only [List.length_cons] at hf
      obtain ⟨x, r, hx⟩ : ∃ x r, F ++ (m.width ++ (precText P ++ ((m.conv.getD (natural t)).1 ++
          (m.conv.getD (natural t)).2 :: outs (es.map Elem.piece) ((ts.drop u).map fc)))) = x :: r := by
        cases h : F ++ (m.width ++ (precText P ++ ((m.conv.getD (natural t)).1 ++
          (m.conv.getD (natural t)).2 :: outs (es.map Elem.piece) ((ts.drop u).map fc)))) with
        | nil => simp at h
        | cons x r => exact ⟨x, r, rfl⟩
      have hxne : x ≠ '%' := by
        have hmem : ∀ y, (F ++ (m.width ++ (precText P ++ ((m.conv.getD (natural t)).1 ++
          (m.conv.getD (natural t)).2 :: outs (es.map Elem.piece) ((ts.drop u).map fc))))).head? = some y →
            y ≠ '%' := by
          intro y hy
          cases hF' : F with
          | cons d ds =>
            rw [hF'] at hy; simp at hy; subst hy
            have : ∀ x ∈ flagChars, x ≠ '%' := by decide
            exact this d (hF d (by simp [hF']))
          | nil =>
            rw [hF'] at hy; simp only [List.nil_append] at hy
            cases hW' : m.width with
            | cons d ds =>
              rw [hW'] at hy; simp at hy; subst hy
              rcases hm.width with hw | hw
              · rw [hW'] at hw; simp at hw; rw [hw.1]; decide
              · have := hw d (by simp [hW'])
                rintro rfl; exact absurd this (by decide)
            | nil =>
              rw [hW'] at hy; simp only [List.nil_append] at hy
              cases hP' : P with
              | none =>
                rw [hP'] at hy
                exact (head_conv (r := outs (es.map Elem.piece) ((ts.drop u).map fc)) hL hc y hy).2.2.2.2
              | some q => rw [hP'] at hy; simp [precText] at hy; subst hy; decide
        exact hmem x (by rw [hx]; rfl)
      have hassoc : '%' :: (F ++ (m.width ++ (precText P ++ ((m.conv.getD (natural t)).1 ++
          [(m.conv.getD (natural t)).2])))) ++ outs (es.map Elem.piece) ((ts.drop u).map fc) = '%' :: (x :: r) := by
        rw [← hx]; simp
      rw [hassoc, readFmt_conv hxne, ← hx, hconv, Option.bind_some]
      simp only
      rw [ih f (by omega), hmean]
      rfl

theorem outs_no_nul : ∀ (es : List Elem) (ts : List CType), (∀ e ∈ es, e.Ok) →
    uses (es.map Elem.piece) ≤ ts.length →
    ∀ c ∈ outs (es.map Elem.piece) (ts.map fc), c ≠ nul
  | [], ts, _, _ => by simp [outs]
  | .lit c :: es, ts, hok, hu => by
    intro x hx
    simp only [List.map_cons, Elem.piece, outs, List.mem_append] at hx
    rcases hx with hx | hx
    · have hc : c ≠ nul := hok (.lit c) (by simp)
      split at hx
      · simp at hx; subst hx; decide
      · simp at hx; subst hx; exact hc
    · exact outs_no_nul es ts (fun e he => hok e (by simp [he]))
        (by simpa [uses, Elem.piece, Piece.uses] using hu) x hx
  | .field colon m :: es, ts, hok, hu => by
    intro x hx
    have hm : m.Ok := (hok (.field colon m) (by simp)).1
    simp only [List.map_cons, Elem.piece, outs, List.mem_append] at hx
    set u := (Piece.field colon m.show).uses with hu'
    have hpos : 1 ≤ u := by rw [hu']; simp [Piece.uses]
    have hle : u + uses (es.map Elem.piece) ≤ ts.length := by simpa [uses, Elem.piece] using hu
    obtain ⟨t, ht⟩ : ∃ t, ts[u - 1]? = some t := by
      rw [List.getElem?_eq_getElem (by omega)]; exact ⟨_, rfl⟩
    rw [List.getElem?_map, ht, ← List.map_drop] at hx
    rcases hx with hx | hx
    · simp only [Option.map_some, Option.getD_some] at hx
      obtain ⟨F, P, hF, hP, hout, hL, hc, -⟩ := fieldOut_eq (colon := colon) (t := t) hm
      rw [hout] at hx
      simp only [List.mem_cons, List.mem_append, List.not_mem_nil, or_false] at hx
      rcases hx with rfl | hx | hx | hx | hx | rfl
      · decide
      · have : ∀ x ∈ flagChars, x ≠ nul := by decide
        exact this x (hF x hx)
      · exact (num_chars hm.width hx).2.2.2.2.1
      · exact (prec_chars hP hx).2.2.2.2.1
      · have : ∀ l ∈ lens, ∀ x ∈ l, x ≠ nul := by decide
        exact this _ hL x hx
      · have : ∀ x ∈ convChars, x ≠ nul := by decide
        exact this _ hc
    · exact outs_no_nul es (ts.drop u) (fun e he => hok e (by simp [he]))
        (by rw [List.length_drop]; omega) x hx

end Verif.Fmt
