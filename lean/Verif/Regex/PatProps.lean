import Verif.Regex.Pattern
/-
The properties of patterns given as text: `regcomp` is the whole of `_regcomp1`, from the text of the
pattern (its code points) to the program. What a pattern means is said in Syntax.lean, Spec.lean.
-/
namespace Verif.Regex
open Verif.Utf8 (Byte casefold)
open Verif.Utf8.Spec (Scalar enc text Text)
open Spec (Tok Re G Parse Groups Matches Sur Item Spells)

section
variable {n k bytes : Nat} {ic dot full alloc : Bool} {s : List Nat} {l : List (Tok Sur)} {P : Prog} {E : Env} {U : Test → Nat → Bool} {cs : List Nat} {pre rest : List Byte} {o : Option Match} {ret : Int}

theorem text_lt (h : Text cs) : ∀ r ∈ cs, r < 0x110000 := by
  intro r hr
  have := (h r hr).1
  unfold Scalar at this
  omega

/-! ### compiling -/

/-- A pattern of the grammar is compiled, except for the limits of the compiler: the sizes of its stacks,
31 groups, 16 classes. Compiling it never leaves the memory. -/
theorem pattern_accepted (hs : Spells ic s l) (hn : (l.filter isCls).length ≤ 16) (hb : s.length ≤ bytes) {e : Re Sur} (hg : G 0 0 l e n) :
    (∃ P, regcomp ic dot bytes s = .ok (P, n)) ∨ ∃ x, regcomp ic dot bytes s = .err x ∧ limit x = true := by
  rw [regcomp_spells hs hn]
  have hplain := spells_plain (dot := dot) hs
  have h1 := compile_fine (cap := 5 + 6 * bytes) (ic := ic) (G_map (opOf ic dot) hg)
  have h2 : compile (5 + 6 * bytes) ic (l.map (Tok.map (opOf ic dot))) ≠ .ub := by
    refine compile_not_ub (fun o ho => plain_atom (hplain o ho)) ?_
    have := spells_length hs
    rw [List.length_map]
    omega
  cases hc : compile (5 + 6 * bytes) ic (l.map (Tok.map (opOf ic dot))) with
  | ub => exact absurd hc h2
  | err x => rw [hc] at h1; exact .inr ⟨x, rfl, h1⟩
  | ok y =>
    obtain ⟨P, n'⟩ := y
    obtain ⟨-, -, h3⟩ := compile_means (fun o ho => plain_atom (hplain o ho)) hc
    rcases h3 with ⟨h3, -⟩ | ⟨e', h3, -⟩
    · rw [List.map_eq_nil_iff] at h3
      exact absurd h3 (G_ne_nil hg)
    · obtain ⟨-, rfl⟩ := G_unique (G_map (opOf ic dot) hg) h3
      exact .inl ⟨P, rfl⟩

/-- What is compiled is a pattern of the grammar, and the number of groups is the number of its groups; or
it is empty. -/
theorem pattern_compiled (hs : Spells ic s l) (hn : (l.filter isCls).length ≤ 16) (hc : regcomp ic dot bytes s = .ok (P, n)) :
    (l = [] ∧ n = 0) ∨ ∃ e, G 0 0 l e n := by
  rw [regcomp_spells hs hn] at hc
  obtain ⟨-, -, h3⟩ := compile_means (fun o ho => plain_atom (spells_plain hs o ho)) hc
  rcases h3 with ⟨h3, h4, -⟩ | ⟨e', h3, -⟩
  · rw [List.map_eq_nil_iff] at h3
    exact .inl ⟨h3, h4⟩
  · obtain ⟨e, -, h5⟩ := G_unmap _ h3 l rfl
    exact .inr ⟨e, h5⟩

/-- An error that is not about a limit is reported only for what is not a pattern. -/
theorem pattern_rejected (hs : Spells ic s l) (hn : (l.filter isCls).length ≤ 16) (hb : s.length ≤ bytes) {x : Err} (hc : regcomp ic dot bytes s = .err x) (hx : limit x = false) :
    ¬ ∃ e n, G 0 0 l e n := by
  rintro ⟨e, n, hg⟩
  rcases pattern_accepted (dot := dot) hs hn hb hg with ⟨P, h⟩ | ⟨y, h, hy⟩
  · rw [hc] at h; cases h
  · rw [hc] at h; cases h; rw [hx] at hy; cases hy

/-- A pattern means one expression. -/
theorem pattern_unambiguous {e e' : Re Sur} {n n' : Nat} (h : G 0 0 l e n) (h' : G 0 0 l e' n') : e = e' ∧ n = n' := G_unique h h'

/-- Compiling any text whatsoever stays inside the pattern and the program, if the text does not end
inside of `\Q` or with a backslash, and is short or has no classes; with an error or without. (All
texts: it fails, `compile_reads_behind`.) -/
theorem compile_in_bounds_partial (h0 : 0 ∉ s) (hc : Closed false s = true) (hs : s.length ≤ 32 ∨ 91 ∉ s) (hb : s.length ≤ bytes) :
    regcomp ic dot bytes s ≠ .ub := regcomp_not_ub h0 hc hs hb

/-- A class of at most 31 items (one less if it is negated) contains exactly the characters of its items,
its final dash, and if it is negated the newline; behind its bracket compiling goes on. `-`, `^` and `[`
stand for themselves where they cannot mean anything else (`Spec.Placed`). Missing: larger
classes (`class_truncated`), a dash at the beginning of a negated class (`negated_dash_is_range`), ranges up to an
escaped character (`escaped_range_wrong`), ranges without regard to case other than those between lower
case letters, upper case letters or digits (`icase_range_wrong`). -/
theorem class_contents_partial {st : LS} {neg dash : Bool} {items : List Item} {r : List Nat} (hok : (Sur.cls neg items dash).ok st.ic) (hr : r ≠ []) (hl : st.lit = false) (hn : st.nclass < 16)
    (hrest : st.rest = (if neg then [94] else []) ++ items.flatMap Item.show ++ (if dash then [45] else []) ++ 93 :: r) (hU : E.grp = grpOf U) :
    ∃ spans, bldcclass st = .ok (.cls neg spans, { st with rest := r, nclass := st.nclass + 1 }) ∧
      ∀ x < 0x110000, inSpans E (if st.ic then casefold x else x) spans = true ↔ (neg = true ∧ x = 10) ∨ (∃ it ∈ items, it.has st.ic U x) ∨ (dash = true ∧ x = 45) := by
  refine ⟨_, bldcclass_show hok hr hl hn hrest, fun x hx => ?_⟩
  rw [inSpans_iff, hU]
  exact class_in hok.2.1 hx

/-! ### matching -/

/-- A reported match is a match of the pattern. Missing is the same as in `regex_match_sound_partial`. -/
theorem pattern_match_sound_partial (hs : Spells ic s l) (hn : (l.filter isCls).length ≤ 16) (hw : Tok.one Sur.wb ∈ l → Edges E cs) (hne : l ≠ []) (hc : regcomp ic dot bytes s = .ok (P, n)) (hU : E.grp = grpOf U)
    (hin : Input E cs pre rest) (heol : Soft E) (hk : k ≤ cs.length) (hx : exec P E full (off pre cs k) alloc = some (1, o)) :
    ∃ m e i j g, o = some m ∧ G 0 0 l e n ∧ k ≤ i ∧ i ≤ j ∧ j ≤ cs.length ∧ m.start = off pre cs i ∧ m.stop = off pre cs j ∧
      Parse (Sur.has ic dot U cs) e i (fun _ => none) j g ∧ ∀ x, m.sub x = subOf (mapG pre cs g x) := by
  rw [regcomp_spells hs hn] at hc
  obtain ⟨m, e', i, j, g, h1, h2, h3, h4, h5, h6, h7, h8, h9⟩ := regex_match_sound_partial (spells_plain hs) (wb_map hw) (by simpa using hne) hc hin heol hk hx
  obtain ⟨e, rfl, hg⟩ := G_unmap _ h2 l rfl
  rw [hU] at h8
  exact ⟨m, e, i, j, g, h1, hg, h3, h4, h5, h6, h7, parse_unmap (fun a ha i j => (atom_has (text_lt hin.txt) ha i j).1) h8 e rfl (G_ones hg (spells_fine hs)), h9⟩

/-- With CREG_FULLMATCH there is a match of whole lines. Missing is the same as in `regex_fullmatch_partial`. -/
theorem pattern_fullmatch_partial (hs : Spells ic s l) (hn : (l.filter isCls).length ≤ 16) (hw : Tok.one Sur.wb ∈ l → Edges E cs) (hne : l ≠ []) (hc : regcomp ic dot bytes s = .ok (P, n)) (hU : E.grp = grpOf U)
    (hin : Input E cs pre rest) (heol : Soft E) (hk : k ≤ cs.length) (hx : exec P E true (off pre cs k) alloc = some (1, o)) :
    ∃ e i j, G 0 0 l e n ∧ k ≤ i ∧ j ≤ cs.length ∧ Matches (Sur.has ic dot U cs) e i j ∧
      (i = 0 ∨ cs[i - 1]? = some 10) ∧ (j = cs.length ∨ cs[j]? = some 10) := by
  rw [regcomp_spells hs hn] at hc
  obtain ⟨e', i, j, h1, h2, h3, h4, h5, h6⟩ := regex_fullmatch_partial (spells_plain hs) (wb_map hw) (by simpa using hne) hc hin heol hk hx
  obtain ⟨e, rfl, hg⟩ := G_unmap _ h1 l rfl
  rw [hU] at h4
  obtain ⟨g, h7⟩ := matches_parse h4 (fun _ => none)
  exact ⟨e, i, j, hg, h2, h3, parse_matches (parse_unmap (fun a ha i j => (atom_has (text_lt hin.txt) ha i j).1) h7 e rfl (G_ones hg (spells_fine hs))), h5, h6⟩

/-- If there is a match then the leftmost one is reported, and of those the longest one. What is missing
is said at `regex_leftmost_longest_partial`. -/
theorem pattern_leftmost_longest_partial (hs : Spells ic s l) (hn : (l.filter isCls).length ≤ 16) (hw : Tok.one Sur.wb ∈ l → Edges E cs) (hc : regcomp ic dot bytes s = .ok (P, n)) (hU : E.grp = grpOf U)
    (hin : Input E cs pre rest) (heol : Soft E) (hk : k ≤ cs.length)
    (hbol : Tok.one Sur.bol ∈ l → k = 0 ∧ 10 ∉ cs) (hfold : ic = true → ∀ c ∈ cs, 128 ≤ c → 128 ≤ casefold c)
    (hx : exec P E false (off pre cs k) alloc = some (ret, o)) (hret : ret ≠ -1) {e : Re Sur} (hg : G 0 0 l e n) {i j : Nat} (hki : k ≤ i) (hi : i ≤ cs.length)
    (hm : Matches (Sur.has ic dot U cs) e i j) :
    ret = 1 ∧ ∃ m i' j', o = some m ∧ m.start = off pre cs i' ∧ m.stop = off pre cs j' ∧ i' ≤ i ∧ j' ≤ cs.length ∧ (i' = i → j ≤ j') := by
  rw [regcomp_spells hs hn] at hc
  refine regex_leftmost_longest_partial (spells_plain hs) (wb_map hw) hc hin heol hk (fun h => ?_) hfold hx hret _ n i j (G_map (opOf ic dot) hg) hki hi ?_
  · obtain ⟨a, ha, he⟩ := one_map h
    exact hbol (opOf_bol he.symm ▸ ha)
  · rw [hU]
    exact matches_map (fun a ha i j => (atom_has (text_lt hin.txt) ha i j).2) hm (G_ones hg (spells_fine hs))

/-- Under the same conditions: no match is reported only if there is none. -/
theorem pattern_nomatch_partial (hs : Spells ic s l) (hn : (l.filter isCls).length ≤ 16) (hw : Tok.one Sur.wb ∈ l → Edges E cs) (hc : regcomp ic dot bytes s = .ok (P, n)) (hU : E.grp = grpOf U)
    (hin : Input E cs pre rest) (heol : Soft E) (hk : k ≤ cs.length)
    (hbol : Tok.one Sur.bol ∈ l → k = 0 ∧ 10 ∉ cs) (hfold : ic = true → ∀ c ∈ cs, 128 ≤ c → 128 ≤ casefold c)
    (hx : exec P E false (off pre cs k) alloc = some (0, o)) {e : Re Sur} (hg : G 0 0 l e n) {i j : Nat} (hki : k ≤ i) (hi : i ≤ cs.length) :
    ¬ Matches (Sur.has ic dot U cs) e i j := by
  intro hm
  have := (pattern_leftmost_longest_partial hs hn hw hc hU hin heol hk hbol hfold hx (by omega) hg hki hi hm).1
  omega

/-- The character that an operand stands for, as it is compared. -/
def Sur.single (ic : Bool) : Sur → Option Nat
  | .chr c | .lit c | .esc c | .ctl _ c => some (if ic then casefold c else c)
  | .hex ds => some (if ic then casefold (Spec.hexv ds) else Spec.hexv ds)
  | _ => none

/-- The pattern begins with something else than a single ASCII character or `^`; a group is fine. -/
def FreeHead (ic : Bool) (e : Re Sur) : Prop := ∀ a, e.head = some a → a ≠ .bol ∧ ∀ c, Sur.single ic a = some c → 128 ≤ c

theorem free_head {e : Re Sur} (h : FreeHead ic e) (hf : ∀ a, e.head = some a → Sur.fine ic a) : HeadOk (e.map (opOf ic dot)) := by
  unfold HeadOk
  rw [head_map]
  cases he : e.head with
  | none => simp
  | some a =>
    obtain ⟨h1, h2⟩ := h a he
    simp only [Option.map_some, ne_eq, Option.some.injEq]
    refine ⟨fun hb => h1 (opOf_bol hb), fun c hc => ?_⟩
    have hfa := hf a he
    have code : ∀ {k : Nat}, isCode k = true → ¬ ((if ic then Op.irune k else Op.rune k) = .rune c) ∧ ¬ ((if ic then Op.irune k else Op.rune k) = .irune c) := by
      intro k hk
      have := code_ge hk
      constructor <;> split <;> intro h <;> cases h <;> omega
    have lit : ∀ {x : Nat}, (∀ c, some (if ic then casefold x else x) = some c → 128 ≤ c) → ¬ ((if ic then Op.irune (casefold x) else Op.rune x) = .rune c) ∧ ¬ ((if ic then Op.irune (casefold x) else Op.rune x) = .irune c) := by
      intro x hx
      have := hx _ rfl
      constructor
      · split
        · intro h; cases h
        · rename_i hi; intro h; cases h; rw [if_neg hi] at this; omega
      · split
        · rename_i hi; intro h; cases h; rw [if_pos hi] at this; omega
        · intro h; cases h
    cases a with
    | chr x => exact lit h2
    | lit x => exact lit h2
    | esc x => exact lit h2
    | ctl _ x => exact lit h2
    | hex ds => exact lit h2
    | short _ t neg =>
      rcases hfa with h | ⟨_, h, -⟩
      · exact code (codeS_code h)
      · cases h
    | uni _ t neg =>
      rcases hfa with h | ⟨_, h, -⟩
      · exact code (codeU_code h)
      · cases h
    | dot => cases dot <;> simp [opOf]
    | mode b => cases b <;> simp [opOf]
    | _ => simp [opOf]

theorem ones_head {α : Type} {p : α → Prop} : ∀ {e : Re α}, Ones p e → ∀ a, e.head = some a → p a
  | .one _, h, a, he => by cases he; exact h
  | .grp _ _, _, a, he => by cases he
  | .cat x _, h, a, he => ones_head (e := x) h.1 a he
  | .alt _ _, _, a, he => by cases he
  | .star _, _, a, he => by cases he
  | .plus x, h, a, he => ones_head (e := x) h a he
  | .opt _, _, a, he => by cases he

/-- A match in a view is a match of the text of the view, and inside it; see `regex_view_partial` for what
is missing. -/
theorem pattern_view_partial (hs : Spells ic s l) (hn : (l.filter isCls).length ≤ 16) (hw : Tok.one Sur.wb ∈ l → Edges E cs) (hz : Tok.one Sur.eoz ∈ l → Soft E) (hc : regcomp ic dot bytes s = .ok (P, n)) (hU : E.grp = grpOf U)
    {e : Re Sur} (hg : G 0 0 l e n) (hh : FreeHead ic e)
    (hin : Input E cs pre rest) (hk : k ≤ cs.length) (hx : exec P E full (off pre cs k) alloc = some (1, o)) :
    ∃ m i j g, o = some m ∧ pre.length ≤ m.start ∧ m.start ≤ m.stop ∧ m.stop ≤ pre.length + (text cs).length ∧
      k ≤ i ∧ i ≤ j ∧ j ≤ cs.length ∧ m.start = off pre cs i ∧ m.stop = off pre cs j ∧
      Parse (Sur.has ic dot U cs) e i (fun _ => none) j g ∧ ∀ x, m.sub x = subOf (mapG pre cs g x) := by
  rw [regcomp_spells hs hn] at hc
  have hones := G_ones hg (spells_fine hs)
  obtain ⟨m, i, j, g, h1, h2, h3, h4, h5, h6, h7, h8, h9, h10, h11⟩ := regex_view_partial (spells_plain hs)
    (fun h => by obtain ⟨a, ha, he⟩ := one_map h; exact hz (opOf_eoz he.symm ▸ ha)) (wb_map hw) hc (G_map (opOf ic dot) hg) (free_head hh (ones_head hones)) hin hk hx
  rw [hU] at h10
  exact ⟨m, i, j, g, h1, h2, h3, h4, h5, h6, h7, h8, h9, parse_unmap (fun a ha i j => (atom_has (text_lt hin.txt) ha i j).1) h10 e rfl hones, h11⟩

/-- In a view, and also where `pattern_leftmost_longest_partial` has its conditions: the leftmost longest
match is reported. Missing: that there are enough threads. -/
theorem pattern_head_leftmost_longest_partial (hs : Spells ic s l) (hn : (l.filter isCls).length ≤ 16) (hw : Tok.one Sur.wb ∈ l → Edges E cs) (hz : Tok.one Sur.eoz ∈ l → Soft E) (hc : regcomp ic dot bytes s = .ok (P, n)) (hU : E.grp = grpOf U)
    {e : Re Sur} (hg : G 0 0 l e n) (hh : FreeHead ic e) (hin : Input E cs pre rest) (hk : k ≤ cs.length)
    (hx : exec P E false (off pre cs k) alloc = some (ret, o)) (hret : ret ≠ -1) {i j : Nat} (hki : k ≤ i) (hi : i ≤ cs.length) (hm : Matches (Sur.has ic dot U cs) e i j) :
    ret = 1 ∧ ∃ m i' j', o = some m ∧ m.start = off pre cs i' ∧ m.stop = off pre cs j' ∧ i' ≤ i ∧ j' ≤ cs.length ∧ (i' = i → j ≤ j') := by
  rw [regcomp_spells hs hn] at hc
  have hones := G_ones hg (spells_fine hs)
  refine regex_head_leftmost_longest_partial (spells_plain hs) (fun h => ?_) (wb_map hw) hc (G_map (opOf ic dot) hg) (free_head hh (ones_head hones)) hin hk hx hret i j hki hi ?_
  · obtain ⟨a, ha, he⟩ := one_map h
    exact hz (opOf_eoz he.symm ▸ ha)
  · rw [hU]
    exact matches_map (fun a ha i j => (atom_has (text_lt hin.txt) ha i j).2) hm hones

end

/-! ### cases, and what fails -/

section

/-- The digits are the ones of ASCII. -/
def U0 (t : Test) (r : Nat) : Bool := match t with | .grp 2 => 48 ≤ r && r ≤ 57 | _ => false

/-- A text with its terminator, and the classes. -/
def strU (cs : List Nat) : Env := ⟨text cs ++ [0#8], 0, none, grpOf U0, fun _ => false⟩

/-- A view of the text `cs` before `more`. -/
def viewU (cs more : List Nat) : Env := ⟨text cs ++ text more ++ [0#8], 0, some (text cs).length, grpOf U0, fun _ => false⟩

theorem strU_input {cs : List Nat} (h : Text cs) : Input (strU cs) cs [] [0#8] := ⟨h, rfl, rfl, .inl ⟨rfl, [], rfl⟩⟩

/-- The result of matching a pattern. -/
def patResult (ic dot full : Bool) (s : List Nat) (E : Env) : Option (Option (Int × Option (Nat × Nat × Sub))) :=
  match regcomp ic dot s.length s with
  | .ok (P, _) => some ((exec P E full 0 true).map fun x => (x.1, x.2.map fun b => (b.start, b.stop, b.sub 1)))
  | _ => none

/-- The pattern `[a-c\t]+\.(\d|\Q*\E)`. -/
def demo : List Nat := [91, 97, 45, 99, 92, 116, 93, 43, 92, 46, 40, 92, 100, 124, 92, 81, 42, 92, 69, 41]
def demoToks : List (Tok Sur) := [.one (.cls false [.rng 97 99, .ctl 116 9] false), .plus, .one (.esc 46), .lpar, .one (.short 100 (.grp 2) false), .bar, .one (.lit 42), .rpar]
def demoRe : Re Sur := .cat (.cat (.plus (.one (.cls false [.rng 97 99, .ctl 116 9] false))) (.one (.esc 46))) (.grp 1 (.alt (.one (.short 100 (.grp 2) false)) (.one (.lit 42))))

theorem demo_spells : Spells false demo demoToks := by
  have one : ∀ {a : Sur} {s l}, a.ok false → Spells false s l → Spells false (a.show ++ s) (.one a :: l) := fun {a} _ _ ha h => .tok (t := .one a) (fun b hb => by cases hb; exact ha) (fun h => by cases h) h
  have op : ∀ {t : Tok Sur} {s l}, (∀ a, t ≠ .one a) → (t = .lpar → s.head? ≠ some 63) → Spells false s l → Spells false (t.show ++ s) (t :: l) := fun ha hp h => .tok (fun b hb => absurd hb (ha b)) hp h
  refine one (a := .cls false [.rng 97 99, .ctl 116 9] false) ⟨by decide, fun it hit => ?_, by simp [Spec.Placed, Item.placed]⟩
    (op (t := .plus) (by simp) (by simp) (one (a := .esc 46) ⟨by decide, by decide, by decide⟩ (op (t := .lpar) (by simp) (by simp [Sur.show])
    (one (a := .short 100 (.grp 2) false) (by simp [Sur.ok, Spec.short]) (op (t := .bar) (by simp) (by simp) (.quote (w := [42]) (by simp) (by simp) (by simp) (op (t := .rpar) (by simp) (by simp) .nil)))))))
  simp only [List.mem_cons, List.not_mem_nil, or_false] at hit
  rcases hit with rfl | rfl
  · exact ⟨by simp, by decide, by decide, by decide, by decide⟩
  · show (116, 9) ∈ Spec.ctls
    decide

theorem demo_grammar : G 0 0 demoToks demoRe 1 := by
  exact .seq (.cat (ts := [.one (Sur.cls false [.rng 97 99, .ctl 116 9] false), .plus, .one (Sur.esc 46)]) (.cat (ts := [.one (Sur.cls false [.rng 97 99, .ctl 116 9] false), .plus])
    (.item (.plus (ts := [.one (Sur.cls false [.rng 97 99, .ctl 116 9] false)]) .one)) .one) (.grp (ts := [.one (Sur.short 100 (.grp 2) false), .bar, .one (Sur.lit 42)])
      (.alt (ts := [.one (Sur.short 100 (.grp 2) false)]) (.seq (.item .one)) (.item .one))))

/-- "xb\ta.7y": the match is "b\ta.7", the group is "7". -/
theorem demo_matches : patResult false false false demo (strU [120, 98, 9, 97, 46, 55, 121]) = some (some (1, some (1, 6, ⟨some 5, 1⟩))) := by decide +kernel

example : (demoToks.filter isCls).length ≤ 16 ∧ FreeHead false demoRe ∧ Tok.one Sur.eoz ∉ demoToks ∧ Tok.one Sur.bol ∉ demoToks := by
  refine ⟨by decide, ?_, by decide, by decide⟩
  intro a ha
  cases ha
  exact ⟨by simp, fun c hc => by cases hc⟩

/-- The same in a view, of which "y" is not part. -/
example : patResult false false false demo (viewU [120, 98, 9, 97, 46, 55] [121]) = some (some (1, some (1, 6, ⟨some 5, 1⟩))) := by decide +kernel

/-- A text with its terminator, where the classes of Unicode are the letters. -/
def strL (cs : List Nat) : Env := ⟨text cs ++ [0#8], 0, none, grpOf fun _ r => letter r, letter⟩

/-- The pattern `\bc\b` is found in "ab c.", whose edges are as needed. -/
example : Spells false [92, 98, 99, 92, 98] [.one .wb, .one (.chr 99), .one .wb] ∧ Edges (strL [97, 98, 32, 99, 46]) [97, 98, 32, 99, 46] ∧
    patResult false false false [92, 98, 99, 92, 98] (strL [97, 98, 32, 99, 46]) = some (some (1, some (3, 4, ⟨none, 0⟩))) := by
  have one : ∀ {a : Sur} {s l}, a.ok false → Spells false s l → Spells false (a.show ++ s) (.one a :: l) := fun {a} _ _ ha h => .tok (t := .one a) (fun b hb => by cases hb; exact ha) (fun h => by cases h) h
  refine ⟨one (a := .wb) trivial (one (a := .chr 99) (by unfold Sur.ok; decide) (one (a := .wb) trivial .nil)), ⟨fun r => ?_, by decide +kernel, by decide +kernel⟩, by decide +kernel⟩
  have hc : codeTest Spec.wordCode = some (.uword, false) := by decide +kernel
  simp [strL, grpOf, hc, Test.holds]

/-- Without regard to case, `[a-f[:upper:]\p{Lu}]` can be written; and the named class contains "y". -/
example : (Sur.cls false [.rng 97 102, .posix [117, 112, 112, 101, 114] .upper false, .uni [76, 117] .uupper false] false).ok true ∧
    Spec.Named true U0 .upper false 121 ∧ (Item.rng 97 102).has true U0 69 ∧ ¬ (Item.rng 97 102).has true U0 71 := by
  refine ⟨⟨by decide, fun it hit => ?_, by simp [Spec.Placed, Item.placed]⟩, by unfold Spec.Named; decide +kernel, ⟨101, by decide, by decide, by decide +kernel⟩, ?_⟩
  · simp only [List.mem_cons, List.not_mem_nil, or_false] at hit
    rcases hit with rfl | rfl | rfl
    · exact ⟨fun _ => .inl (by decide), by decide, by decide, by decide, by decide⟩
    · simp [Item.ok, Spec.posix]
    · simp [Item.ok, Spec.uniProps]
  · rintro ⟨x, h1, h2, h3⟩
    rw [fold_low 71 (by decide), fold_low x (by omega), if_neg (by omega)] at h3
    simp at h3
    omega

/-- Without regard to case, `[[:upper:]]+` is found in "1aZ2". -/
theorem icase_named : patResult true false false [91, 91, 58, 117, 112, 112, 101, 114, 58, 93, 93, 43] (strU [49, 97, 90, 50]) = some (some (1, some (1, 3, ⟨none, 0⟩))) := by decide +kernel

/-- Without regard to case, `[xÉ]` is found in "aé". -/
example : patResult true false false [91, 120, 0xC9, 93] (strU [97, 0xE9]) = some (some (1, some (1, 3, ⟨none, 0⟩))) := by decide +kernel

/-- `(?i)`: the flags are outside of the syntax described, but are modelled. -/
example : patResult false false false [40, 63, 105, 41, 120] (strU [97, 88]) = some (some (1, some (1, 2, ⟨none, 0⟩))) := by decide +kernel

/-- Errors: `(a`, `a)`, `*`, `[a`. -/
example : (∀ p ∈ [[40, 97], [97, 41], [42], [91, 97]], ∃ x, regcomp false false p.length p = .err x ∧ limit x = false) := by
  intro p hp
  simp only [List.mem_cons, List.not_mem_nil, or_false] at hp
  rcases hp with rfl | rfl | rfl | rfl
  · exact ⟨.unmatchedLeft, rfl, rfl⟩
  · exact ⟨.unmatchedRight, rfl, rfl⟩
  · exact ⟨.missingOperand, rfl, rfl⟩
  · exact ⟨.malformedClass, rfl, rfl⟩

example : 0 ∉ demo ∧ Closed false demo = true ∧ (demo.length ≤ 32 ∨ 91 ∉ demo) := by decide +kernel

/-- `[^b-d]`, with 16 allowed classes. -/
example : (Sur.cls true [.rng 98 100] false).ok false ∧
    (91 :: ([94] ++ [Item.rng 98 100].flatMap Item.show ++ [] ++ 93 :: [0]) : List Nat) = [91, 94, 98, 45, 100, 93, 0] := by
  refine ⟨⟨by decide, fun it hit => ?_, by simp [Spec.Placed, Item.placed]⟩, rfl⟩
  simp only [List.mem_cons, List.not_mem_nil, or_false] at hit
  subst hit
  exact ⟨by simp, by decide, by decide, by decide, by decide⟩

/-- `[-+^[]` can be written: a dash in front, then `+`, `^` and `[`, and contains a dash. `[^^-]` excludes `^`. -/
example : (Sur.cls false [.sym 45, .chr 43, .sym 94, .sym 91] false).ok false ∧ (Sur.cls true [.sym 94] true).ok false ∧
    (Sur.cls false [.sym 45, .chr 43, .sym 94, .sym 91] false).show = [91, 45, 43, 94, 91, 93] ∧
    patResult false false false [91, 45, 43, 94, 91, 93] (strU [97, 45]) = some (some (1, some (1, 2, ⟨none, 0⟩))) ∧
    patResult false false false [91, 94, 94, 45, 93] (strU [94, 45, 97]) = some (some (1, some (2, 3, ⟨none, 0⟩))) := by
  refine ⟨⟨by decide, fun it hit => ?_, by simp [Spec.Placed, Item.placed]⟩, ⟨by decide, fun it hit => ?_, by simp [Spec.Placed, Item.placed]⟩, rfl, by decide +kernel, by decide +kernel⟩
  · simp only [List.mem_cons, List.not_mem_nil, or_false] at hit
    rcases hit with rfl | rfl | rfl | rfl
    · exact .inl rfl
    · exact ⟨by decide, by decide⟩
    · exact .inr (.inl rfl)
    · exact .inr (.inr rfl)
  · simp only [List.mem_cons, List.not_mem_nil, or_false] at hit
    subst hit
    exact .inr (.inl rfl)

/-- `[\t-\r]` matches "A": the end of the range is the letter r, not the carriage return. -/
theorem escaped_range_wrong : patResult false false false [91, 92, 116, 45, 92, 114, 93] (strU [65]) = some (some (1, some (0, 1, ⟨none, 0⟩))) := by decide +kernel

/-- `[A-_]` without regard to case does not match "A": the ends are folded, and become "a" and "_". -/
theorem icase_range_wrong : patResult true false false [91, 65, 45, 95, 93] (strU [65]) = some (some (0, none)) := by decide +kernel

/-- `[^-a]` does not match "A": it is compiled as the complement of the range from the newline to "a". -/
theorem negated_dash_is_range : patResult false false false [91, 94, 45, 97, 93] (strU [65]) = some (some (0, none)) := by decide +kernel

/-- A class of 40 characters is compiled without an error, but as a class of 32 of them that is followed
by the last 7 as literals, and a bracket. -/
theorem class_truncated : patResult false false false (91 :: (List.range 40).map (fun i => 200 + 2 * i) ++ [93]) (strU [200]) = some (some (0, none)) ∧
    patResult false false false (91 :: (List.range 40).map (fun i => 200 + 2 * i) ++ [93]) (strU [200, 266, 268, 270, 272, 274, 276, 278, 93]) =
      some (some (1, some (0, 17, ⟨none, 0⟩))) := ⟨by decide +kernel, by decide +kernel⟩

/-- `\x{41}` is not the letter "A": it is taken as `\A`, and `\x{64}` as `\d`. -/
theorem hex_letter_wrong : patResult false false false [92, 120, 123, 52, 49, 125] (strU [66]) = some (some (1, some (0, 0, ⟨none, 0⟩))) ∧
    patResult false false false [92, 120, 123, 54, 52, 125] (strU [53]) = some (some (1, some (0, 1, ⟨none, 0⟩))) := ⟨by decide +kernel, by decide +kernel⟩

/-- Texts for which compiling reads behind the terminator: a backslash at the end; `\Qa`; a class with
exactly 32 spans that is not closed. -/
theorem compile_reads_behind : regcomp false false 1 [92] = .ub ∧ regcomp false false 3 [92, 81, 97] = .ub ∧
    regcomp false false 33 (91 :: (List.range 32).map (· + 97)) = .ub := by
  refine ⟨rfl, rfl, ?_⟩
  have h : (match regcomp false false 33 (91 :: (List.range 32).map (· + 97)) with | .ub => true | _ => false) = true := by decide +kernel
  revert h
  generalize regcomp false false 33 (91 :: (List.range 32).map (· + 97)) = r
  cases r <;> simp

end

end Verif.Regex
