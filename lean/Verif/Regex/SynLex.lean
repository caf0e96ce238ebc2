import Verif.Regex.Syntax
import Verif.Regex.LexSafe
/- The lexer reads what is spelled. -/
namespace Verif.Regex
open Spec
open Verif.Utf8 (casefold)

/-! ### the tables -/

/-- Two names differ before one of them ends. -/
def clash : List Nat → List Nat → Bool
  | a :: as, b :: bs => a != b || clash as bs
  | _, _ => false

theorem strip_clash : ∀ {n m : List Nat} (r : List Nat), clash n m = true → strip n (m ++ r) = none
  | [], _, _, h => by simp [clash] at h
  | _ :: _, [], _, h => by simp [clash] at h
  | a :: as, b :: bs, r, h => by
    rw [List.cons_append, strip]
    split
    · rename_i e
      subst e
      simp only [clash, bne_self_eq_false, Bool.false_or] at h
      exact strip_clash r h
    · rfl

theorem strip_self : ∀ (n r : List Nat), strip n (n ++ r) = some r
  | [], r => by simp [strip]
  | a :: n, r => by rw [List.cons_append, strip, if_pos rfl]; exact strip_self n r

theorem lookup_of : ∀ {T : List (List Nat × Nat)} {n r : List Nat} {k : Nat}, (n, k) ∈ T → (∀ p ∈ T, p = (n, k) ∨ clash p.1 n = true) → lookup (n ++ r) T = some (k, r)
  | [], _, _, _, h, _ => by cases h
  | (m, j) :: T, n, r, k, h, hc => by
    rw [lookup]
    rcases hc (m, j) (by simp) with e | e
    · cases e
      rw [strip_self]
    · rw [strip_clash r e]
      simp only
      refine lookup_of ?_ (fun p hp => hc p (by simp [hp]))
      rcases List.mem_cons.1 h with e' | h
      · cases e'
        have : ∀ l, clash l l = false := by intro l; induction l with | nil => rfl | cons a l ih => simp [clash, ih]
        rw [this] at e; cases e
      · exact h

theorem utf_clash : ∀ p ∈ utfNames, ∀ q ∈ utfNames, q = p ∨ clash q.1 p.1 = true := by decide +kernel
theorem ascii_clash : ∀ p ∈ asciiNames, ∀ q ∈ asciiNames, q = p ∨ clash q.1 p.1 = true := by decide +kernel

/-- A code and the next one stand for a test and its negation. -/
def Codes (k : Nat) (t : Test) : Prop := codeTest k = some (t, false) ∧ codeTest (k + 1) = some (t, true) ∧ isCode k = true ∧ isCode (k + 1) = true

instance (k : Nat) (t : Test) : Decidable (Codes k t) := by unfold Codes; infer_instance

/-- The codes without regard to case. -/
def looseU (ic : Bool) (k : Nat) : Nat := if ic ∧ (k = 0x8100026 ∨ k = 0x8100028) then 0x8100024 else k
def looseP (ic : Bool) (k : Nat) : Nat := if ic ∧ (k = 0x8100018 ∨ k = 0x810001a) then 0x8100004 else k

theorem utf_codes : ∀ ic, ∀ p ∈ uniProps, ∃ q ∈ utfNames, q.1 = 123 :: (p.1 ++ [125]) ∧ Codes (looseU ic q.2) (p.2.mode ic) := by decide +kernel
theorem ascii_codes : ∀ ic, ∀ p ∈ posix, (∃ q ∈ asciiNames, q.1 = p.1 ++ [58, 93] ∧ Codes (looseP ic q.2) (p.2.mode ic)) ∧ p.1.head? ≠ some 94 ∧ p.1 ≠ [] := by decide +kernel
theorem short_codes : ∀ ic, ∀ p ∈ short, 32 ≤ p.1 ∧ (∃ k, mapping p.1 = some k ∧ mapping (p.1 - 32) = some (k + 1) ∧ Codes k (p.2.mode ic)) := by
  intro ic p hp
  simp only [short, List.mem_cons, List.not_mem_nil, or_false] at hp
  rcases hp with rfl | rfl | rfl
  · exact ⟨by decide, 0x8150004, by decide, by decide, by cases ic <;> decide⟩
  · exact ⟨by decide, 0x810002a, by decide, by decide, by cases ic <;> decide⟩
  · exact ⟨by decide, 0x810002c, by decide, by decide, by cases ic <;> decide⟩

/-! ### single characters -/

theorem nextc_char {lit : Bool} {c : Nat} {r : List Nat} (h : c ≠ 92) : nextc lit (c :: r) = .ok (lit, c, lit, r) := by
  cases r with
  | nil => simp [nextc, h]
  | cons d r => rw [nextc, if_neg h]

theorem nextc_esc {d : Nat} {r : List Nat} (h : d ≠ 81) (h' : d ≠ 120) : nextc false (92 :: d :: r) = .ok (true, d, false, r) := by
  rw [nextc, if_pos rfl]
  simp [h, h']

theorem nextc_Q {r : List Nat} : nextc false (92 :: 81 :: r) = nextc true r := by
  rw [nextc, if_pos rfl]; simp

theorem nextc_E {r : List Nat} : nextc true (92 :: 69 :: r) = nextc false r := by
  rw [nextc, if_pos rfl]; simp

theorem hexVal_hexc {d : Nat} (h : d < 16) : hexVal (hexc d) = some d := by
  unfold hexVal hexc
  split <;> split <;> (try split) <;> (try split) <;> simp <;> omega

theorem hexDigits_show : ∀ {ds : List Nat} {r : List Nat}, (∀ d ∈ ds, d < 16) → hexDigits (ds.map hexc ++ 125 :: r) = (ds, 125 :: r)
  | [], r, _ => by simp [hexDigits, hexVal]
  | d :: ds, r, h => by
    rw [List.map_cons, List.cons_append, hexDigits, hexVal_hexc (h d (by simp)), hexDigits_show (fun x hx => h x (by simp [hx]))]

theorem hexc_range {d : Nat} (h : d < 16) : (48 ≤ hexc d ∧ hexc d ≤ 57) ∨ (97 ≤ hexc d ∧ hexc d ≤ 102) := by
  unfold hexc
  split <;> omega

theorem strtol16_show {ds : List Nat} {r : List Nat} (hne : ds ≠ []) (h : ∀ d ∈ ds, d < 16) (hv : hexv ds < 0x110000) :
    strtol16 (ds.map hexc ++ 125 :: r) = (hexv ds, 125 :: r) := by
  cases ds with
  | nil => exact absurd rfl hne
  | cons d ds =>
    have hd := hexc_range (h d (by simp))
    have h1 : skipSpace ((d :: ds).map hexc ++ 125 :: r) = (d :: ds).map hexc ++ 125 :: r := by
      rw [List.map_cons, List.cons_append, skipSpace, if_neg (by omega)]
    have h2 : sign ((d :: ds).map hexc ++ 125 :: r) = (false, (d :: ds).map hexc ++ 125 :: r) := by
      unfold sign
      split
      · rename_i h; simp at h; omega
      · rename_i h; simp at h; omega
      · rfl
    have h3 : skip0x ((d :: ds).map hexc ++ 125 :: r) = (d :: ds).map hexc ++ 125 :: r := by
      unfold skip0x
      split
      · rename_i x y cs heq
        rw [← heq, if_neg]
        rw [List.map_cons, List.cons_append] at heq
        rintro ⟨hx, -⟩
        have e2 := (List.cons.inj heq).2
        cases ds with
        | nil => simp at e2; omega
        | cons d' ds =>
          rw [List.map_cons, List.cons_append] at e2
          have e3 := (List.cons.inj e2).1
          have := hexc_range (h d' (by simp))
          omega
      · rfl
    unfold strtol16
    simp only [h1, h2, h3, hexDigits_show h]
    rw [if_neg (by simp)]
    have he : List.foldl (fun v d => 16 * v + d) 0 (d :: ds) = hexv (d :: ds) := rfl
    simp only [Bool.false_eq_true, if_false, he]
    congr 1
    omega

theorem nextc_hex {ds r : List Nat} (hne : ds ≠ []) (h : ∀ d ∈ ds, d < 16) (hv : hexv ds < 0x110000) :
    nextc false ((Sur.hex ds).show ++ r) = .ok (true, hexv ds, false, r) := by
  simp only [Sur.show, List.append_assoc, List.cons_append, List.nil_append]
  rw [nextc, if_pos rfl]
  simp [strtol16_show hne h hv]

theorem mapping_none {c : Nat} (h : alnum c = false) : mapping c = none := by
  unfold alnum at h
  unfold mapping
  simp only [Bool.or_eq_false_iff, Bool.and_eq_false_iff, decide_eq_false_iff_not] at h
  rw [if_neg, if_neg, if_neg, if_neg, if_neg, if_neg, if_neg, if_neg, if_neg, if_neg, if_neg, if_neg] <;> omega

theorem alnum_not {c d : Nat} (h : alnum c = false) (hd : alnum d = true) : c ≠ d := by
  rintro rfl; rw [h] at hd; cases hd

theorem quoted_esc {ic : Bool} {c : Nat} {r : List Nat} (h : alnum c = false) : quoted ic c r = (c, r) := by
  unfold quoted
  rw [mapping_none h]
  simp only
  rw [if_neg]
  rintro (e | e)
  · exact alnum_not (d := 112) h rfl e
  · exact alnum_not (d := 80) h rfl e

theorem ctl_mapping : ∀ p ∈ ctls, mapping p.1 = some p.2 ∧ p.1 ≠ 81 ∧ p.1 ≠ 120 ∧ p.1 ≠ 98 ∧ p.1 ≠ 66 ∧ p.1 ≠ 65 ∧ p.1 ≠ 122 ∧ p.1 ≠ 90 ∧ p.2 ≠ 0 ∧ p.2 < 128 ∧ p.1 ≠ 0 := by decide +kernel

theorem quoted_map {ic : Bool} {c k : Nat} {r : List Nat} (h : mapping c = some k) : quoted ic c r = (k, r) := by
  unfold quoted; rw [h]

/-! ### codes of names -/

def codeU (ic : Bool) (n : List Nat) (neg : Bool) : Nat := (match lookup (123 :: (n ++ [125])) utfNames with | some (k, _) => looseU ic k | none => 0) + if neg then 1 else 0
def codeP (ic : Bool) (n : List Nat) (neg : Bool) : Nat := (match lookup (n ++ [58, 93]) asciiNames with | some (k, _) => looseP ic k | none => 0) + if neg then 1 else 0
def codeS (l : Nat) (neg : Bool) : Nat := (mapping l).getD 0 + if neg then 1 else 0

theorem codeU_spec {n : List Nat} {t : Test} (ic : Bool) (h : (n, t) ∈ uniProps) : ∃ k, codeU ic n false = looseU ic k ∧ codeU ic n true = looseU ic k + 1 ∧ Codes (looseU ic k) (t.mode ic) ∧ ∀ r, lookup (123 :: (n ++ 125 :: r)) utfNames = some (k, r) := by
  obtain ⟨⟨m, k⟩, h1, h2, h3⟩ := utf_codes ic _ h
  simp only at h2 h3
  subst h2
  have hl : ∀ r, lookup (123 :: (n ++ 125 :: r)) utfNames = some (k, r) := by
    intro r
    have := lookup_of (r := r) h1 (utf_clash _ h1)
    simpa using this
  refine ⟨k, ?_, ?_, h3, hl⟩
  · unfold codeU; rw [hl]; rfl
  · unfold codeU; rw [hl]; rfl

theorem codeP_spec {n : List Nat} {t : Test} (ic : Bool) (h : (n, t) ∈ posix) : ∃ k, codeP ic n false = looseP ic k ∧ codeP ic n true = looseP ic k + 1 ∧ Codes (looseP ic k) (t.mode ic) ∧ ∀ r, lookup (n ++ 58 :: 93 :: r) asciiNames = some (k, r) := by
  obtain ⟨⟨⟨m, k⟩, h1, h2, h3⟩, -⟩ := ascii_codes ic _ h
  simp only at h2 h3
  subst h2
  have hl : ∀ r, lookup (n ++ 58 :: 93 :: r) asciiNames = some (k, r) := by
    intro r
    have := lookup_of (r := r) h1 (ascii_clash _ h1)
    simpa using this
  refine ⟨k, ?_, ?_, h3, hl⟩
  · unfold codeP; rw [hl]; rfl
  · unfold codeP; rw [hl]; rfl

theorem codeS_spec {l : Nat} {t : Test} (ic : Bool) (h : (l, t) ∈ short) : ∃ k, codeS l false = k ∧ codeS l true = k + 1 ∧ Codes k (t.mode ic) ∧ mapping l = some k ∧ mapping (l - 32) = some (k + 1) := by
  obtain ⟨-, k, h1, h2, h3⟩ := short_codes ic _ h
  refine ⟨k, ?_, ?_, h3, h1, h2⟩
  · unfold codeS; simp only at h1; rw [h1]; rfl
  · unfold codeS; simp only at h1; rw [h1]; rfl

theorem lexUtf_show {ic : Bool} {n r : List Nat} {t : Test} {neg : Bool} (h : (n, t) ∈ uniProps) :
    quoted ic (if neg then 80 else 112) (123 :: (n ++ 125 :: r)) = (codeU ic n neg, r) := by
  obtain ⟨k, h1, h2, -, h4⟩ := codeU_spec ic h
  unfold quoted lexUtf
  cases neg
  · rw [h1]; simp [mapping, h4, looseU]
  · rw [h2]; simp [mapping, h4, looseU]

theorem lexAscii_show {ic : Bool} {n r : List Nat} {t : Test} {neg : Bool} (h : (n, t) ∈ posix) :
    lexAscii ic (58 :: ((if neg then [94] else []) ++ n ++ 58 :: 93 :: r)) = (codeP ic n neg, r) := by
  obtain ⟨k, h1, h2, -, h4⟩ := codeP_spec ic h
  obtain ⟨-, h5, h6⟩ := ascii_codes ic _ h
  have hcar : caret ((if neg then [94] else []) ++ n ++ 58 :: 93 :: r) = (neg, n ++ 58 :: 93 :: r) := by
    cases neg
    · simp only [Bool.false_eq_true, if_false, List.nil_append]
      cases n with
      | nil => exact absurd rfl h6
      | cons a n =>
        simp only [List.head?_cons, ne_eq, Option.some.injEq] at h5
        unfold caret
        split
        · rename_i heq; exact absurd (List.cons.inj heq).1 h5
        · rfl
    · rfl
  have htail : caret (58 :: ((if neg then [94] else []) ++ n ++ 58 :: 93 :: r)).tail = (neg, n ++ 58 :: 93 :: r) := hcar
  unfold lexAscii
  rw [htail]
  simp only [h4]
  cases neg
  · rw [h1]; simp [looseP]
  · rw [h2]; simp [looseP]

/-! ### classes -/

/-- The span for an item. -/
def spanOf (ic : Bool) : Item → Nat × Nat
  | .chr c | .esc c | .ctl _ c | .sym c => (foldc ic c, foldc ic c)
  | .rng a b => (foldc ic a, foldc ic b)
  | .short l _ neg => (codeS l neg, codeS l neg)
  | .posix n _ neg => (codeP ic n neg, codeP ic n neg)
  | .uni n _ neg => (codeU ic n neg, codeU ic n neg)

/-- Reading a character and going on with the class. -/
def cl (f : Nat) (st : LS) (sp : List (Nat × Nat)) (s : List Nat) : R (List (Nat × Nat) × LS) :=
  (nextc false s).bind fun (q, c, lit, rest) => classLoop f { st with lit := lit, rest := rest } (q, c) sp

theorem single {f : Nat} {st : LS} {sp : List (Nat × Nat)} {s : List Nat} {q : Bool} {c : Nat} {r r' : List Nat} {k : Nat}
    (hn : nextc false s = .ok (q, c, false, r)) (hsp : sp.length ≤ 31) (h0 : c ≠ 0) (h93 : q = false → c ≠ 93) (h45 : q = false → c = 45 → sp = []) (hr : r ≠ [])
    (hy : (if q then quoted st.ic c r else if c = 91 ∧ r.head? = some 58 then lexAscii st.ic r else (c, r)) = (k, r')) :
    cl (f + 1) st sp s = cl f st ((foldc st.ic k, foldc st.ic k) :: sp) r' := by
  unfold cl
  rw [hn]
  simp only [R.bind]
  rw [classLoop, if_neg (by omega), if_neg h0, if_neg (fun h => h93 h.1 h.2)]
  cases r with
  | nil => exact absurd rfl hr
  | cons x xs =>
    simp only
    rw [if_neg (fun h => h.2.2.1 (h45 h.1 h.2.1))]
    simp only [List.head?_cons, Option.some.injEq] at hy
    rw [hy]
    rfl

theorem plainIn_ne {c : Nat} (h : plainIn c = true) : c ≠ 0 ∧ c ≠ 92 ∧ c ≠ 93 ∧ c ≠ 91 ∧ c ≠ 45 ∧ c ≠ 94 := by
  unfold plainIn at h
  simp only [Bool.and_eq_true, bne_iff_ne, ne_eq] at h
  obtain ⟨⟨⟨⟨⟨h1, h2⟩, h3⟩, h4⟩, h5⟩, h6⟩ := h
  exact ⟨h1, h2, h3, h4, h5, h6⟩

theorem short_ne {l : Nat} {t : Test} (h : (l, t) ∈ short) (neg : Bool) : let d := if neg then l - 32 else l
    d ≠ 0 ∧ d ≠ 81 ∧ d ≠ 120 ∧ d ≠ 98 ∧ d ≠ 66 ∧ d ≠ 65 ∧ d ≠ 122 ∧ d ≠ 90 := by
  simp only [short, List.mem_cons, Prod.mk.injEq, List.not_mem_nil, or_false] at h
  rcases h with ⟨rfl, -⟩ | ⟨rfl, -⟩ | ⟨rfl, -⟩ <;> cases neg <;> simp

theorem foldc_code {ic : Bool} {k : Nat} (h : isCode k = true) : foldc ic k = k := by
  unfold foldc
  split
  · unfold isCode at h
    simp only [Bool.and_eq_true, decide_eq_true_eq] at h
    rcases Verif.Utf8.casefold_facts k with e | ⟨-, -, -, e⟩
    · exact e
    · omega
  · rfl

theorem codes_isCode {k : Nat} {t : Test} (h : Codes k t) (neg : Bool) : isCode (k + if neg then 1 else 0) = true := by
  cases neg
  · exact h.2.2.1
  · exact h.2.2.2

theorem codeS_code {l : Nat} {t : Test} {neg : Bool} (h : (l, t) ∈ short) : isCode (codeS l neg) = true := by
  obtain ⟨k, k1, k2, k3, -⟩ := codeS_spec false h
  have := codes_isCode k3 neg
  cases neg
  · rw [k1]; exact this
  · rw [k2]; exact this

theorem codeP_code {ic : Bool} {n : List Nat} {t : Test} {neg : Bool} (h : (n, t) ∈ posix) : isCode (codeP ic n neg) = true := by
  obtain ⟨k, k1, k2, k3, -⟩ := codeP_spec ic h
  have := codes_isCode k3 neg
  cases neg
  · rw [k1]; exact this
  · rw [k2]; exact this

theorem codeU_code {ic : Bool} {n : List Nat} {t : Test} {neg : Bool} (h : (n, t) ∈ uniProps) : isCode (codeU ic n neg) = true := by
  obtain ⟨k, k1, k2, k3, -⟩ := codeU_spec ic h
  have := codes_isCode k3 neg
  cases neg
  · rw [k1]; exact this
  · rw [k2]; exact this

theorem item_step {f : Nat} {st : LS} {sp : List (Nat × Nat)} {it : Item} {r : List Nat} (hok : it.ok st.ic) (hpl : ∀ c, it = .sym c → (c = 45 → sp = []) ∧ (c = 91 → r.head? ≠ some 58)) (hsp : sp.length + 1 ≤ 31) (hr : r ≠ []) :
    ∃ d, d < it.show.length ∧ cl (f + d + 1) st sp (it.show ++ r) = cl f st (spanOf st.ic it :: sp) r := by
  cases it with
  | chr c =>
    obtain ⟨h1, h2⟩ := hok
    obtain ⟨p1, p2, p3, p4, p5, p6⟩ := plainIn_ne h1
    refine ⟨0, by simp [Item.show], ?_⟩
    exact single (s := c :: r) (nextc_char p2) (by omega) p1 (fun _ => p3) (fun _ e => absurd e p5) hr (by simp [p4])
  | esc c =>
    obtain ⟨h1, h2, h3⟩ := hok
    refine ⟨0, by simp [Item.show], ?_⟩
    exact single (s := 92 :: c :: r) (nextc_esc (alnum_not h2 rfl) (alnum_not h2 rfl)) (by omega) h1 (by simp) (by simp) hr (by simp [quoted_esc h2])
  | ctl l c =>
    obtain ⟨h1, h2, h3, -, -, -, -, -, h4, h5, h6⟩ := ctl_mapping _ hok
    refine ⟨0, by simp [Item.show], ?_⟩
    exact single (s := 92 :: l :: r) (nextc_esc h2 h3) (by omega) h6 (by simp) (by simp) hr (by simp only [if_true]; exact quoted_map h1)
  | short l t neg =>
    have h := hok
    obtain ⟨d1, d2, d3, -⟩ := short_ne h neg
    obtain ⟨k, k1, k2, k3, k4, k5⟩ := codeS_spec st.ic h
    refine ⟨0, by simp [Item.show], ?_⟩
    have hm : mapping (if neg then l - 32 else l) = some (codeS l neg) := by
      cases neg
      · rw [k1]; exact k4
      · rw [k2]; exact k5
    have hc : foldc st.ic (codeS l neg) = codeS l neg := foldc_code (codeS_code h)
    simp only [spanOf]
    have := single (f := f) (st := st) (sp := sp) (s := 92 :: _ :: r) (nextc_esc d2 d3) (by omega) d1 (by simp) (by simp) hr (by simp only [if_true]; exact quoted_map hm)
    rw [hc] at this
    exact this
  | posix n t neg =>
    have h := hok
    refine ⟨0, by simp [Item.show], ?_⟩
    have hc : foldc st.ic (codeP st.ic n neg) = codeP st.ic n neg := foldc_code (codeP_code h)
    simp only [spanOf]
    have := single (f := f) (st := st) (sp := sp) (k := codeP st.ic n neg) (r' := r) (s := 91 :: 58 :: ((if neg then [94] else []) ++ n ++ 58 :: 93 :: r)) (nextc_char (by omega)) (by omega) (by omega) (by simp) (by simp) (by simp)
      (by simp only [Bool.false_eq_true, if_false, List.head?_cons, and_self, if_true]; exact lexAscii_show h)
    rw [hc] at this
    rw [← this]
    simp [Item.show]
  | uni n t neg =>
    have h := hok
    refine ⟨0, by simp [Item.show], ?_⟩
    have hc : foldc st.ic (codeU st.ic n neg) = codeU st.ic n neg := foldc_code (codeU_code h)
    simp only [spanOf]
    have := single (f := f) (st := st) (sp := sp) (k := codeU st.ic n neg) (r' := r) (s := 92 :: (if neg then 80 else 112) :: (123 :: (n ++ 125 :: r))) (nextc_esc (by split <;> omega) (by split <;> omega)) (by omega) (by split <;> omega) (by simp) (by simp) (by simp)
      (by simp only [if_true]; exact lexUtf_show h)
    rw [hc] at this
    rw [← this]
    simp [Item.show]
  | sym c =>
    obtain ⟨h1, h2⟩ := hpl c rfl
    refine ⟨0, by simp [Item.show], ?_⟩
    have hc : c = 45 ∨ c = 94 ∨ c = 91 := hok
    exact single (s := c :: r) (nextc_char (by omega)) (by omega) (by omega) (fun _ => by omega) (fun _ => h1) hr (by simp only [Bool.false_eq_true, if_false]; rw [if_neg (fun h => h2 h.1 h.2)])
  | rng a b =>
    obtain ⟨hic, ha, hb, h1, h2⟩ := hok
    obtain ⟨p1, p2, p3, p4, p5, p6⟩ := plainIn_ne ha
    obtain ⟨q1, q2, q3, q4, q5, q6⟩ := plainIn_ne hb
    refine ⟨1, by simp [Item.show], ?_⟩
    have e1 := single (f := f + 1) (st := st) (sp := sp) (s := a :: 45 :: b :: r) (nextc_char p2) (by omega) p1 (fun _ => p3) (fun _ e => absurd e p5) (by simp) (k := a) (r' := 45 :: b :: r) (by simp [p4])
    show cl (f + 1 + 1) st sp (a :: 45 :: b :: r) = _
    rw [e1]
    unfold cl
    rw [nextc_char (by omega)]
    simp only [R.bind]
    rw [classLoop, if_neg (by simp; omega), if_neg (by omega), if_neg (by simp)]
    simp only
    rw [if_pos (by simp [q3]), nextc_char q2]
    simp only [R.bind]
    rw [if_neg q1]
    simp only [spanOf]

theorem items_step {st : LS} {neg : Bool} : ∀ {items : List Item} {first : Bool} {f : Nat} {sp : List (Nat × Nat)} {r : List Nat}, (∀ it ∈ items, it.ok st.ic) → Placed neg first items → (first = true → neg = false → sp = []) →
    sp.length + items.length ≤ 31 → r ≠ [] → r.head? ≠ some 58 →
    ∃ d, d ≤ (items.flatMap Item.show).length ∧ cl (f + d) st sp (items.flatMap Item.show ++ r) = cl f st ((items.map (spanOf st.ic)).reverse ++ sp) r
  | [], _, f, sp, r, _, _, _, _, _, _ => ⟨0, by simp, rfl⟩
  | it :: items, first, f, sp, r, hok, hpl, h0, hsp, hr, h58 => by
    simp only [List.length_cons] at hsp
    obtain ⟨d, h1, h2⟩ := items_step (items := items) (f := f) (sp := spanOf st.ic it :: sp) (r := r) (fun i hi => hok i (by simp [hi])) hpl.2 (by simp) (by simp; omega) hr h58
    obtain ⟨d', h3, h4⟩ := item_step (f := f + d) (st := st) (sp := sp) (it := it) (r := items.flatMap Item.show ++ r) (hok it (by simp))
      (by
        rintro c rfl
        obtain ⟨⟨p1, -, p3⟩, -⟩ := hpl
        refine ⟨fun e => h0 (p1 e).1 (p1 e).2, fun e => ?_⟩
        cases hs : items.flatMap Item.show with
        | nil => rw [List.nil_append]; exact h58
        | cons x xs => rw [hs] at p3; exact p3 e)
      (by omega) (by simp [hr])
    refine ⟨d + d' + 1, by simp only [List.flatMap_cons, List.length_append]; omega, ?_⟩
    rw [List.flatMap_cons, List.append_assoc, show f + (d + d' + 1) = f + d + d' + 1 by omega, h4, h2]
    simp

theorem classLoop_mono : ∀ {f g : Nat} {st : LS} {y : Bool × Nat} {sp : List (Nat × Nat)} {z : List (Nat × Nat) × LS}, f ≤ g → classLoop f st y sp = .ok z → classLoop g st y sp = .ok z
  | 0, _, _, _, _, _, _, h => by rw [classLoop] at h; cases h
  | f + 1, 0, _, _, _, _, hle, _ => by omega
  | f + 1, g + 1, st, (q, c), sp, z, hle, h => by
    rw [classLoop] at h ⊢
    split at h
    · rename_i hc; rw [if_pos hc]; exact h
    · rename_i hc
      rw [if_neg hc]
      split at h
      · cases h
      · rename_i hc; rw [if_neg hc]
        split at h
        · rename_i hc; rw [if_pos hc]; exact h
        · rename_i hc; rw [if_neg hc]
          split at h
          · cases h
          · split at h
            · rename_i hc
              rw [if_pos hc]
              cases hn : nextc st.lit st.rest with
              | ub => rw [hn] at h; cases h
              | err => rw [hn] at h; cases h
              | ok y =>
                obtain ⟨a1, a2, a3, a4⟩ := y
                rw [hn] at h
                simp only [R.bind] at h ⊢
                split at h
                · cases h
                · rename_i hc; rw [if_neg hc]
                  cases sp with
                  | nil => cases h
                  | cons p sp =>
                    simp only at h ⊢
                    cases hn : nextc a3 a4 with
                    | ub => rw [hn] at h; cases h
                    | err => rw [hn] at h; cases h
                    | ok y =>
                      rw [hn] at h
                      exact classLoop_mono (by omega) h
            · rename_i hc
              rw [if_neg hc]
              simp only at h ⊢
              generalize (if q = true then quoted st.ic c st.rest else if c = 91 ∧ _ = 58 then lexAscii st.ic st.rest else (c, st.rest)) = y at h ⊢
              cases hn : nextc st.lit y.2 with
              | ub => rw [hn] at h; cases h
              | err => rw [hn] at h; cases h
              | ok y =>
                rw [hn] at h
                exact classLoop_mono (by omega) h

/-- The rest of a class. -/
theorem class_end {st : LS} {neg : Bool} {items : List Item} {dash : Bool} {sp : List (Nat × Nat)} {r : List Nat} {f : Nat} (hok : ∀ it ∈ items, it.ok st.ic) (hpl : Placed neg true items) (h0 : neg = false → sp = []) (hsp : sp.length + items.length ≤ 31) (hr : r ≠ [])
    (hf : (items.flatMap Item.show).length + (if dash then 1 else 0) + 1 ≤ f) :
    cl f st sp (items.flatMap Item.show ++ ((if dash then [45] else []) ++ 93 :: r)) =
      .ok ((if dash then [(45, 45)] else []) ++ (items.map (spanOf st.ic)).reverse ++ sp, { st with lit := false, rest := r }) := by
  have hend : ∀ f sp, cl (f + 1) st sp (93 :: r) = .ok (sp, { st with lit := false, rest := r }) := by
    intro f sp
    unfold cl
    rw [nextc_char (by omega)]
    simp only [R.bind]
    rw [classLoop]
    split
    · rfl
    · rw [if_neg (by omega), if_pos ⟨rfl, rfl⟩]
  have hdash : ∀ f sp, sp.length ≤ 31 → cl (f + (if dash then 1 else 0) + 1) st sp ((if dash then [45] else []) ++ 93 :: r) = .ok ((if dash then [(45, 45)] else []) ++ sp, { st with lit := false, rest := r }) := by
    intro f sp hs
    cases dash
    · exact hend f sp
    · have : foldc st.ic 45 = 45 := by
        unfold foldc; split
        · decide +kernel
        · rfl
      show cl (f + 1 + 1) st sp (45 :: 93 :: r) = _
      unfold cl
      rw [nextc_char (by omega)]
      simp only [R.bind]
      rw [classLoop, if_neg (by omega), if_neg (by omega), if_neg (by simp)]
      simp only
      rw [if_neg (by simp), if_neg (by simp), if_neg (by simp)]
      simp only [this]
      exact hend f _
  have key : ∀ g, ∃ d, d ≤ (items.flatMap Item.show).length ∧ cl (g + (if dash then 1 else 0) + 1 + d) st sp (items.flatMap Item.show ++ ((if dash then [45] else []) ++ 93 :: r)) =
      .ok ((if dash then [(45, 45)] else []) ++ (items.map (spanOf st.ic)).reverse ++ sp, { st with lit := false, rest := r }) := by
    intro g
    obtain ⟨d, h1, h2⟩ := items_step (items := items) (f := g + (if dash then 1 else 0) + 1) (sp := sp) (r := (if dash then [45] else []) ++ 93 :: r) hok hpl (fun _ => h0) hsp (by simp) (by cases dash <;> simp)
    refine ⟨d, h1, ?_⟩
    rw [h2, hdash _ _ (by simp; omega), List.append_assoc]
  obtain ⟨d, h1, h2⟩ := key 0
  unfold cl at h2 ⊢
  cases hn : nextc false (items.flatMap Item.show ++ ((if dash then [45] else []) ++ 93 :: r)) with
  | ub => rw [hn] at h2; cases h2
  | err => rw [hn] at h2; cases h2
  | ok y =>
    rw [hn] at h2
    exact classLoop_mono (by omega) h2

end Verif.Regex
