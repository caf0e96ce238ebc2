import Verif.Regex.SynLex
/- The parser gets the symbols that are spelled. -/
namespace Verif.Regex
open Spec
open Verif.Utf8 (casefold)

/-- The operand of a program for an operand of a pattern. -/
def opOf (ic dot : Bool) : Sur → Op
  | .chr c | .lit c | .esc c | .ctl _ c => if ic then .irune (casefold c) else .rune c
  | .hex ds => if ic then .irune (casefold (hexv ds)) else .rune (hexv ds)
  | .short l _ neg => if ic then .irune (codeS l neg) else .rune (codeS l neg)
  | .uni n _ neg => if ic then .irune (codeU ic n neg) else .rune (codeU ic n neg)
  | .dot => if dot then .anynl else .any
  | .bol => .bol | .eol => .eol | .bos => .bos | .eos => .eos | .eoz => .eoz | .wb => .wbound
  | .mode b => if b then .icase else .cased
  | .cls neg items dash =>
    .cls neg (mergeSpans (sortSpans ((if neg then [(10, 10)] else []) ++ items.map (spanOf ic) ++ (if dash then [(45, 45)] else []))))

theorem class_head {ic neg : Bool} {items : List Item} {dash : Bool} {r : List Nat} (hok : ∀ it ∈ items, it.ok ic) (hpl : Placed neg true items) :
    ∃ q c rest, nextc false (items.flatMap Item.show ++ ((if dash then [45] else []) ++ 93 :: r)) = .ok (q, c, false, rest) ∧ (neg = false → ¬ (q = false ∧ c = 94)) := by
  cases items with
  | nil =>
    cases dash
    · exact ⟨false, 93, r, nextc_char (by omega), by simp⟩
    · exact ⟨false, 45, 93 :: r, nextc_char (by omega), by simp⟩
  | cons it items =>
    have hok := hok it (by simp)
    rw [List.flatMap_cons, List.append_assoc]
    generalize items.flatMap Item.show ++ ((if dash then [45] else []) ++ 93 :: r) = s
    cases it with
    | chr c =>
      have := plainIn_ne hok.1
      exact ⟨false, c, s, nextc_char this.2.1, fun _ => by simp; exact this.2.2.2.2.2⟩
    | esc c => exact ⟨true, c, s, nextc_esc (alnum_not hok.2.1 rfl) (alnum_not hok.2.1 rfl), by simp⟩
    | ctl l c =>
      obtain ⟨-, h2, h3, -⟩ := ctl_mapping _ hok
      exact ⟨true, l, s, nextc_esc h2 h3, by simp⟩
    | sym c =>
      have hc : c = 45 ∨ c = 94 ∨ c = 91 := hok
      refine ⟨false, c, s, nextc_char (by omega), fun hn h => ?_⟩
      have := hpl.1.2.1 h.2 rfl
      rw [hn] at this
      cases this
    | rng a b =>
      have := plainIn_ne hok.2.1
      exact ⟨false, a, 45 :: b :: s, nextc_char this.2.1, fun _ => by simp; exact this.2.2.2.2.2⟩
    | short l t neg =>
      obtain ⟨-, d2, d3, -⟩ := short_ne hok neg
      exact ⟨true, _, s, nextc_esc d2 d3, by simp⟩
    | posix n t neg =>
      simp only [Item.show, List.append_assoc, List.cons_append, List.nil_append]
      exact ⟨false, 91, _, nextc_char (by omega), by simp⟩
    | uni n t neg =>
      simp only [Item.show, List.append_assoc, List.cons_append, List.nil_append]
      exact ⟨true, if neg then 80 else 112, _, nextc_esc (by split <;> omega) (by split <;> omega), by simp⟩

theorem bldcclass_show {st : LS} {neg dash : Bool} {items : List Item} {r : List Nat} (hok : (Sur.cls neg items dash).ok st.ic) (hr : r ≠ []) (hl : st.lit = false) (hn : st.nclass < 16)
    (hrest : st.rest = (if neg then [94] else []) ++ items.flatMap Item.show ++ (if dash then [45] else []) ++ 93 :: r) :
    bldcclass st = .ok (opOf st.ic st.dot (.cls neg items dash), { st with rest := r, nclass := st.nclass + 1 }) := by
  obtain ⟨h1, h2, hpl⟩ := hok
  unfold bldcclass
  rw [if_neg (by omega), hl]
  simp only
  cases neg
  · simp only [Bool.false_eq_true, if_false, List.nil_append, List.append_assoc, Nat.add_zero] at hrest h1
    obtain ⟨q, c, rest, e1, e2⟩ := class_head (dash := dash) (r := r) h2 hpl
    have hce := class_end (st := { st with nclass := st.nclass + 1 }) (items := items) (dash := dash) (sp := []) (r := r) (f := st.rest.length + 1) h2 hpl (by simp) (by simp; omega) hr
      (by rw [hrest]; simp only [List.length_append, List.length_cons]; split <;> simp)
    unfold cl at hce
    rw [hrest, e1]
    rw [hrest, e1] at hce
    simp only [R.bind] at hce ⊢
    rw [if_neg (e2 rfl), hce]
    simp only []
    congr 2
    simp only [opOf]
    congr 3
    cases dash <;> simp
  · simp only [if_true, List.cons_append, List.nil_append, List.append_assoc] at hrest h1
    rw [hrest, nextc_char (by omega)]
    simp only [R.bind, and_self, if_true]
    obtain ⟨q, c, rest, e1, e2⟩ := class_head (dash := dash) (r := r) h2 hpl
    have hce := class_end (st := { st with nclass := st.nclass + 1 }) (items := items) (dash := dash) (sp := [(10, 10)]) (r := r) (f := st.rest.length + 1) h2 hpl (by simp) (by simp; omega) hr
      (by rw [hrest]; simp only [List.length_append, List.length_cons]; split <;> simp <;> omega)
    unfold cl at hce
    rw [hrest, e1] at hce
    rw [e1]
    simp only [R.bind] at hce ⊢
    rw [hce]
    simp only
    congr 3
    · simp only [opOf]
      congr 3
      cases dash <;> simp

/-! ### the lexer -/

def isCls : Tok Sur → Bool
  | .one (.cls _ _ _) => true
  | _ => false

theorem plain_ne {c : Nat} (h : plain c = true) :
    c ≠ 0 ∧ c ≠ 92 ∧ c ≠ 42 ∧ c ≠ 63 ∧ c ≠ 43 ∧ c ≠ 124 ∧ c ≠ 94 ∧ c ≠ 36 ∧ c ≠ 46 ∧ c ≠ 91 ∧ c ≠ 40 ∧ c ≠ 41 := by
  unfold plain at h
  simp only [Bool.and_eq_true, bne_iff_ne, ne_eq] at h
  tauto

theorem lex_quoted {st : LS} {c k : Nat} {r r' : List Nat} (hn : nextc st.lit st.rest = .ok (true, c, false, r)) (h1 : c ≠ 98) (h2 : c ≠ 66) (h3 : c ≠ 65) (h4 : c ≠ 122) (h5 : c ≠ 90)
    (hq : quoted st.ic c r = (k, r')) : lex st = .ok (some (runeTok st.ic k), { st with lit := false, rest := r' }) := by
  unfold lex
  rw [hn]
  simp [R.bind, h1, h2, h3, h4, h5, hq]

theorem lex_tok {t : Tok Sur} {ic dot : Bool} {n : Nat} {r : List Nat} (hok : ∀ a, t = .one a → a.ok ic) (hpar : t = .lpar → r.head? ≠ some 63) (hr : r ≠ []) (hn : isCls t = true → n < 16) :
    lex ⟨t.show ++ r, false, ic, dot, n⟩ = .ok (some (t.map (opOf ic dot)), ⟨r, false, ic, dot, n + if isCls t then 1 else 0⟩) := by
  have simple : ∀ {c : Nat}, c ≠ 92 → nextc false (c :: r) = .ok (false, c, false, r) := fun h => nextc_char h
  cases t with
  | lpar =>
    simp only [Tok.show, List.cons_append, List.nil_append]
    unfold lex
    simp only [nextc_char (show (40 : Nat) ≠ 92 by omega), R.bind]
    simp only [Bool.false_eq_true, if_false, show ¬ (40 = 0) by omega, show ¬ (40 = 42) by omega, show ¬ (40 = 63) by omega, show ¬ (40 = 43) by omega, show ¬ (40 = 124) by omega,
      show ¬ (40 = 94) by omega, show ¬ (40 = 36) by omega, show ¬ (40 = 46) by omega, show ¬ (40 = 91) by omega, if_true]
    cases r with
    | nil => exact absurd rfl hr
    | cons x r =>
      have := hpar rfl
      simp only [List.head?_cons, ne_eq, Option.some.injEq] at this
      split
      · rename_i h; cases h
      · rename_i h; exact absurd (List.cons.inj h).1 this
      · rfl
  | rpar | bar | star | plus | opt =>
    simp only [Tok.show, List.cons_append, List.nil_append]
    unfold lex
    simp only [nextc_char (show (41 : Nat) ≠ 92 by omega), nextc_char (show (124 : Nat) ≠ 92 by omega), nextc_char (show (42 : Nat) ≠ 92 by omega), nextc_char (show (43 : Nat) ≠ 92 by omega), nextc_char (show (63 : Nat) ≠ 92 by omega), R.bind]
    simp [Tok.map, isCls]
  | one a =>
    have hok := hok a rfl
    simp only [Tok.show]
    cases a with
    | lit c => exact hok.elim
    | chr c =>
      obtain ⟨p0, p1, p2, p3, p4, p5, p6, p7, p8, p9, p10, p11⟩ := plain_ne hok.1
      simp only [Sur.show, List.cons_append, List.nil_append]
      unfold lex
      simp only [nextc_char p1, R.bind]
      simp [p0, p2, p3, p4, p5, p6, p7, p8, p9, p10, p11, runeTok, Tok.map, opOf, isCls]
    | esc c =>
      obtain ⟨-, h2, -⟩ := hok
      have := lex_quoted (st := ⟨92 :: c :: r, false, ic, dot, n⟩) (nextc_esc (alnum_not h2 rfl) (alnum_not h2 rfl)) (alnum_not h2 rfl) (alnum_not h2 rfl) (alnum_not h2 rfl) (alnum_not h2 rfl) (alnum_not h2 rfl) (quoted_esc h2)
      simp only [Sur.show, List.cons_append, List.nil_append]
      rw [this]
      simp [runeTok, Tok.map, opOf, isCls]
    | ctl l c =>
      obtain ⟨h1, h2, h3, h4, h5, h6, h7, h8, -⟩ := ctl_mapping _ hok
      have := lex_quoted (st := ⟨92 :: l :: r, false, ic, dot, n⟩) (nextc_esc h2 h3) h4 h5 h6 h7 h8 (quoted_map h1)
      simp only [Sur.show, List.cons_append, List.nil_append]
      rw [this]
      simp [runeTok, Tok.map, opOf, isCls]
    | hex ds =>
      obtain ⟨h1, h2, h3, h4⟩ := hok
      have := lex_quoted (st := ⟨(Sur.hex ds).show ++ r, false, ic, dot, n⟩) (nextc_hex h1 h2 h3) (alnum_not h4 rfl) (alnum_not h4 rfl) (alnum_not h4 rfl) (alnum_not h4 rfl) (alnum_not h4 rfl) (quoted_esc h4)
      rw [this]
      simp [runeTok, Tok.map, opOf, isCls]
    | short l t neg =>
      have h := hok
      obtain ⟨d1, d2, d3, d4, d5, d6, d7, d8⟩ := short_ne h neg
      obtain ⟨k, k1, k2, k3, k4, k5⟩ := codeS_spec ic h
      have hm : mapping (if neg then l - 32 else l) = some (codeS l neg) := by
        cases neg
        · rw [k1]; exact k4
        · rw [k2]; exact k5
      have := lex_quoted (st := ⟨92 :: _ :: r, false, ic, dot, n⟩) (nextc_esc d2 d3) d4 d5 d6 d7 d8 (quoted_map hm)
      simp only [Sur.show, List.cons_append, List.nil_append]
      rw [this]
      have hc : casefold (codeS l neg) = codeS l neg := foldc_code (ic := true) (codeS_code h)
      simp [runeTok, Tok.map, opOf, isCls, hc]
    | uni nm t neg =>
      have h := hok
      have := lex_quoted (st := ⟨92 :: (if neg then 80 else 112) :: (123 :: (nm ++ 125 :: r)), false, ic, dot, n⟩) (nextc_esc (by split <;> omega) (by split <;> omega))
        (by split <;> omega) (by split <;> omega) (by split <;> omega) (by split <;> omega) (by split <;> omega) (lexUtf_show h)
      simp only [Sur.show, List.append_assoc, List.cons_append, List.nil_append]
      rw [this]
      have hc : casefold (codeU ic nm neg) = codeU ic nm neg := foldc_code (ic := true) (codeU_code h)
      simp [runeTok, Tok.map, opOf, isCls, hc]
    | dot | bol | eol =>
      simp only [Sur.show, List.cons_append, List.nil_append]
      unfold lex
      simp only [nextc_char (show (46 : Nat) ≠ 92 by omega), nextc_char (show (94 : Nat) ≠ 92 by omega), nextc_char (show (36 : Nat) ≠ 92 by omega), R.bind]
      simp [Tok.map, opOf, isCls]
    | bos | eos | eoz | wb =>
      simp only [Sur.show, List.cons_append, List.nil_append]
      unfold lex
      simp only [nextc_esc (show (65 : Nat) ≠ 81 by omega) (show (65 : Nat) ≠ 120 by omega), nextc_esc (show (122 : Nat) ≠ 81 by omega) (show (122 : Nat) ≠ 120 by omega),
        nextc_esc (show (90 : Nat) ≠ 81 by omega) (show (90 : Nat) ≠ 120 by omega), nextc_esc (show (98 : Nat) ≠ 81 by omega) (show (98 : Nat) ≠ 120 by omega), R.bind]
      simp [Tok.map, opOf, isCls]
    | mode b =>
      obtain rfl : b = ic := hok
      unfold lex
      cases b <;> simp only [Sur.show, List.cons_append, List.nil_append, if_true, Bool.false_eq_true, if_false, nextc_char (show (40 : Nat) ≠ 92 by omega), R.bind] <;>
        simp [flags, Tok.map, opOf, isCls]
    | cls neg items dash =>
      have hb := bldcclass_show (st := ⟨(if neg then [94] else []) ++ items.flatMap Item.show ++ (if dash then [45] else []) ++ 93 :: r, false, ic, dot, n⟩) hok hr rfl (hn rfl) rfl
      simp only [Sur.show, List.append_assoc, List.cons_append, List.nil_append] at hb ⊢
      unfold lex
      simp only [nextc_char (show (91 : Nat) ≠ 92 by omega), R.bind]
      simp only [Bool.false_eq_true, if_false, show ¬ (91 = 0) by omega, show ¬ (91 = 42) by omega, show ¬ (91 = 63) by omega, show ¬ (91 = 43) by omega, show ¬ (91 = 124) by omega,
        show ¬ (91 = 94) by omega, show ¬ (91 = 36) by omega, show ¬ (91 = 46) by omega, if_true]
      rw [hb]
      simp [R.bind, Tok.map, isCls]

theorem lex_lit {c : Nat} {ic dot : Bool} {n : Nat} {r : List Nat} (h : c ≠ 92) : lex ⟨c :: r, true, ic, dot, n⟩ = .ok (some ((Tok.one (Sur.lit c)).map (opOf ic dot)), ⟨r, true, ic, dot, n⟩) := by
  unfold lex
  simp only [nextc_char h, R.bind]
  simp [runeTok, Tok.map, opOf]

theorem lex_Q {ic dot : Bool} {n : Nat} {r : List Nat} : lex ⟨92 :: 81 :: r, false, ic, dot, n⟩ = lex ⟨r, true, ic, dot, n⟩ := by
  unfold lex
  simp only [nextc_Q]

theorem lex_E {ic dot : Bool} {n : Nat} {r : List Nat} : lex ⟨92 :: 69 :: r, true, ic, dot, n⟩ = lex ⟨r, false, ic, dot, n⟩ := by
  unfold lex
  simp only [nextc_E]

theorem parse_eq {cap f : Nat} {st st' : LS} (h : lex st = lex st') : parseLoop cap f st = parseLoop cap f st' := by
  cases f with
  | zero => rfl
  | succ f => funext s; rw [parseLoop, parseLoop, h]

theorem parse_lit {cap : Nat} {ic dot : Bool} {n : Nat} {ts : List (Tok Op)} {r : List Nat} {f : Nat} (ih : ∀ s, parseLoop cap f ⟨92 :: 69 :: r, true, ic, dot, n⟩ s = tokens cap ts s) :
    ∀ {w : List Nat}, 92 ∉ w → ∀ s, parseLoop cap (f + w.length) ⟨w ++ 92 :: 69 :: r, true, ic, dot, n⟩ s = tokens cap (w.map (fun c => (Tok.one (Sur.lit c)).map (opOf ic dot)) ++ ts) s
  | [], _, s => ih s
  | c :: w, h, s => by
    rw [List.cons_append, List.length_cons, ← Nat.add_assoc, parseLoop, lex_lit (by rintro rfl; simp at h)]
    simp only [R.bind, List.map_cons, List.cons_append, tokens]
    cases token cap s ((Tok.one (Sur.lit c)).map (opOf ic dot)) with
    | ub => rfl
    | err => rfl
    | ok s' => exact parse_lit ih (by simp at h; exact h.2) s'

theorem spells_parse {cap : Nat} {ic dot : Bool} {s : List Nat} {l : List (Tok Sur)} (h : Spells ic s l) : ∀ (f n : Nat) (ps : PS), n + (l.filter isCls).length ≤ 16 → s.length + 1 ≤ f →
    parseLoop cap f ⟨s ++ [0], false, ic, dot, n⟩ ps = tokens cap (l.map (Tok.map (opOf ic dot))) ps := by
  induction h with
  | nil =>
    intro f n ps hn hf
    cases f with
    | zero => omega
    | succ f =>
      rw [parseLoop]
      rfl
  | @tok t s l hok hpar hs ih =>
    intro f n ps hn hf
    cases f with
    | zero => omega
    | succ f =>
      have hlen : 1 ≤ t.show.length := by
        cases t with
        | one a => cases a <;> simp [Tok.show, Sur.show]
        | _ => simp [Tok.show]
      have hcount : n + (if isCls t then 1 else 0) + (l.filter isCls).length ≤ 16 ∧ (isCls t = true → n < 16) := by
        rw [List.filter_cons] at hn
        split at hn
        · rename_i hc; simp only [List.length_cons] at hn; rw [if_pos hc]; exact ⟨by omega, fun _ => by omega⟩
        · rename_i hc; rw [if_neg hc]; exact ⟨by omega, fun h => absurd h hc⟩
      simp only [List.length_append] at hf
      rw [parseLoop, List.append_assoc, lex_tok hok (fun e => ?_) (by simp) hcount.2]
      · simp only [R.bind, List.map_cons, tokens]
        cases token cap ps (t.map (opOf ic dot)) with
        | ub => rfl
        | err => rfl
        | ok s' => exact ih f _ s' hcount.1 (by omega)
      · have := hpar e
        cases s with
        | nil => simp
        | cons a s => simpa using this
  | @quote w s l h0 h92 hw hs ih =>
    intro f n ps hn hf
    have hflt : ((w.map (fun c => Tok.one (Sur.lit c))).filter isCls) = [] := by
      rw [List.filter_eq_nil_iff]
      intro t ht
      obtain ⟨c, -, rfl⟩ := List.mem_map.1 ht
      simp [isCls]
    rw [List.filter_append, hflt, List.nil_append] at hn
    simp only [List.append_assoc, List.cons_append, List.nil_append, List.length_append, List.length_cons] at hf ⊢
    rw [parse_eq lex_Q]
    obtain ⟨g, rfl⟩ : ∃ g, f = g + w.length := ⟨f - w.length, by omega⟩
    rw [parse_lit (ts := l.map (Tok.map (opOf ic dot))) (fun s' => ?_) h92]
    · rw [List.map_append, List.map_map]; rfl
    · rw [parse_eq lex_E]
      exact ih g n s' hn (by omega)

/-- Compiling a text is compiling the symbols that it spells. -/
theorem regcomp_spells {ic dot : Bool} {bytes : Nat} {s : List Nat} {l : List (Tok Sur)} (h : Spells ic s l) (hn : (l.filter isCls).length ≤ 16) :
    regcomp ic dot bytes s = compile (5 + 6 * bytes) ic (l.map (Tok.map (opOf ic dot))) := by
  unfold regcomp
  rw [spells_parse h _ _ _ (by omega) (Nat.le_refl _), compile_finish]

end Verif.Regex
