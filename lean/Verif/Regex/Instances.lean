import Verif.Regex.WorkProps
import Verif.Regex.Runs
import Verif.Regex.Flags
import Verif.Regex.Term

/-!
# Concrete cases of the theorems about regular expressions

Each theorem is applied to the pattern `[a-c\t]+\.(\d|\Q*\E)` (`demo`) and a text in which it matches, or to
another small case, so that its hypotheses are seen to be met together (cregex_prv.c 280-1130,
cregex.c 1-180).
-/

namespace Verif.Regex
open Spec
open Verif.Utf8 (Byte)
open Verif.Utf8.Spec (Text text enc)

/-- "xb\ta.7y". -/
def demoText : List Nat := [120, 98, 9, 97, 46, 55, 121]

theorem demoText_text : Text demoText := by decide

theorem demo_compiles : ∃ P, regcomp false false demo.length demo = .ok (P, 1) := ⟨_, rfl⟩

theorem demo_exec {P : Prog} (hP : regcomp false false demo.length demo = .ok (P, 1)) :
    ∃ m, exec P (strU demoText) false 0 true = some (1, some m) ∧ m.start = 1 ∧ m.stop = 6 ∧ m.sub 1 = ⟨some 5, 1⟩ := by
  have h := demo_matches
  unfold patResult at h
  rw [hP] at h
  simp only [Option.some.injEq, Option.map_eq_some_iff] at h
  obtain ⟨⟨r, o⟩, h1, h2⟩ := h
  simp only [Prod.mk.injEq, Option.map_eq_some_iff] at h2
  obtain ⟨rfl, m, rfl, h3⟩ := h2
  exact ⟨m, h1, h3⟩

theorem demo_free : FreeHead false demoRe := by
  intro a ha
  cases ha
  exact ⟨by simp, fun c hc => by cases hc⟩

theorem demo_covered (cs : List Nat) (k : Nat) : Covered false demoToks demoRe True cs k :=
  .inl ⟨trivial, fun h => absurd h (by decide), fun h => by cases h⟩

/-- It matches "b\ta.7". -/
theorem demo_parse : Matches (Sur.has false false U0 demoText) demoRe 1 6 := by
  have cl : ∀ i c, demoText[i]? = some c → (97 ≤ c ∧ c ≤ 99) ∨ c = 9 → Matches (Sur.has false false U0 demoText) (.one (.cls false [.rng 97 99, .ctl 116 9] false)) i (i + 1) := by
    intro i c h hc
    refine .one ⟨c, h, .inl ?_, rfl⟩
    rcases hc with hc | rfl
    · exact ⟨.rng 97 99, by simp, by simpa [Spec.Item.has] using hc⟩
    · exact ⟨.ctl 116 9, by simp, by simp [Spec.Item.has, Spec.Same]⟩
  refine .cat (j := 5) (.cat (j := 4) (.plus (j := 2) (cl 1 98 rfl (by omega)) (.starCons (j := 3) (cl 2 9 rfl (by omega)) (.starCons (j := 4) (cl 3 97 rfl (by omega)) .starNil))) ?_) (.grp (.altL ?_))
  · exact .one ⟨46, rfl, by simp [Spec.Same], rfl⟩
  · exact .one ⟨55, rfl, by show Spec.Named false U0 (.grp 2) false 55; unfold Spec.Named; decide +kernel, rfl⟩

/-! ### compiling -/

example := pattern_accepted (ic := false) (dot := false) demo_spells (by decide) (Nat.le_refl _) demo_grammar

example {P : Prog} (hP : regcomp false false demo.length demo = .ok (P, 1)) : ∃ e, G 0 0 demoToks e 1 := by
  rcases pattern_compiled demo_spells (by decide) hP with ⟨h, _⟩ | h
  · cases h
  · exact h

/-- `(a` is not in the language. -/
example : ¬ ∃ (e : Re Sur) (n : Nat), G 0 0 [.lpar, .one (.chr 97)] e n :=
  pattern_rejected (ic := false) (dot := false) (bytes := 2) (s := [40, 97]) (x := .unmatchedLeft)
    (.tok (t := .lpar) (fun a h => by cases h) (fun _ => by decide) (.tok (t := .one (.chr 97)) (fun a h => by cases h; exact ⟨by decide, by decide⟩) (fun h => by cases h) .nil))
    (by decide) (by decide) rfl rfl

example (e : Re Sur) (n : Nat) (h : G 0 0 demoToks e n) : e = demoRe ∧ n = 1 := pattern_unambiguous h demo_grammar

example : regcomp false false demo.length demo ≠ .ub := compile_in_bounds_partial (by decide) (by decide +kernel) (by decide) (Nat.le_refl _)

example {P : Prog} (hP : regcomp false false demo.length demo = .ok (P, 1)) : 1 ≤ 31 := compiled_groups hP

/-- `[^b-d]x`, when the bracket has been read. -/
example : ∃ spans st', bldcclass ⟨[94, 98, 45, 100, 93, 120, 0], false, false, false, 0⟩ = .ok (.cls true spans, st') := by
  obtain ⟨sp, h, -⟩ := class_contents_partial (E := strU []) (st := ⟨[94, 98, 45, 100, 93, 120, 0], false, false, false, 0⟩) (neg := true) (items := [.rng 98 100]) (dash := false) (r := [120, 0])
    ⟨by decide, fun it hit => by
      simp only [List.mem_cons, List.not_mem_nil, or_false] at hit
      subst hit
      exact ⟨by simp, by decide, by decide, by decide, by decide⟩, by simp [Spec.Placed, Item.placed]⟩ (by simp) rfl (by decide) rfl rfl
  exact ⟨sp, _, h⟩

/-! ### matching -/

section
variable {P : Prog} (hP : regcomp false false demo.length demo = .ok (P, 1))
include hP

example : ∃ m e i j g, exec P (strU demoText) false 0 true = some (1, some m) ∧ G 0 0 demoToks e 1 ∧ m.start = off [] demoText i ∧ m.stop = off [] demoText j ∧
    Parse (Sur.has false false U0 demoText) e i (fun _ => none) j g := by
  obtain ⟨m, hm, -⟩ := demo_exec hP
  obtain ⟨m', e, i, j, g, h1, h2, -, -, -, h3, h4, h5, -⟩ := pattern_match_sound_partial (k := 0) demo_spells (by decide) (fun h => absurd h (by decide)) (by decide) hP rfl
    (strU_input demoText_text) (Soft.of_none rfl) (by decide) hm
  cases h1
  exact ⟨m, e, i, j, g, hm, h2, h3, h4, h5⟩

example : ∃ m, exec P (strU demoText) false 0 true = some (1, some m) ∧ ∃ i' j', m.start = off [] demoText i' ∧ m.stop = off [] demoText j' ∧ i' ≤ 1 ∧ (i' = 1 → 6 ≤ j') := by
  obtain ⟨m, hm, -⟩ := demo_exec hP
  obtain ⟨-, m', i, j, h1, h2, h3, h4, -, h5⟩ := pattern_leftmost_longest_partial (k := 0) demo_spells (by decide) (fun h => absurd h (by decide)) hP rfl
    (strU_input demoText_text) (Soft.of_none rfl) (by decide) (fun h => absurd h (by decide)) (fun h => by cases h) hm (by decide) demo_grammar (i := 1) (by decide) (by decide) demo_parse
  cases h1
  exact ⟨m, hm, i, j, h2, h3, h4, h5⟩

/-- The same from the head of the pattern, which is a class. -/
example : ∃ m, exec P (strU demoText) false 0 true = some (1, some m) ∧ ∃ i' j', m.start = off [] demoText i' ∧ m.stop = off [] demoText j' ∧ i' ≤ 1 ∧ (i' = 1 → 6 ≤ j') := by
  obtain ⟨m, hm, -⟩ := demo_exec hP
  obtain ⟨-, m', i, j, h1, h2, h3, h4, -, h5⟩ := pattern_head_leftmost_longest_partial (k := 0) demo_spells (by decide) (fun h => absurd h (by decide)) (fun h => absurd h (by decide)) hP rfl
    demo_grammar demo_free (strU_input demoText_text) (by decide) hm (by decide) (i := 1) (by decide) (by decide) demo_parse
  cases h1
  exact ⟨m, hm, i, j, h2, h3, h4, h5⟩

/-- Any text is searched as described. -/
example (cs : List Nat) (ht : Text cs) :
    (∃ x i j g, exec P (strU cs) false 0 true = some (1, some x) ∧ Spec.Best (Sur.has false false U0 cs) demoRe cs.length 0 i j g ∧ x.start = off [] cs i ∧ x.stop = off [] cs j ∧
      ∀ y, x.sub y = subOf (mapG [] cs g y)) ∨
    ∃ o, exec P (strU cs) false 0 true = some (0, o) ∧ NoMatch (Sur.has false false U0 cs) demoRe cs.length 0 := by
  have := pattern_search (k := 0) demo_spells (by decide) (fun h => absurd h (by decide)) hP rfl demo_grammar (by decide +kernel) (strU_input ht)
    (.inl ⟨Soft.of_none rfl, fun h => absurd h (by decide), fun h => by cases h⟩) (Nat.zero_le _)
  simpa [off, text] using this

/-- Nothing is found in "xyz", in which there is nothing. -/
example (o : Option Match) (h : exec P (strU [120, 121, 122]) false 0 true = some (0, o)) : ¬ Matches (Sur.has false false U0 [120, 121, 122]) demoRe 1 3 :=
  pattern_nomatch_partial (k := 0) demo_spells (by decide) (fun h => absurd h (by decide)) hP rfl (strU_input (by decide)) (Soft.of_none rfl) (by decide)
    (fun h => absurd h (by decide)) (fun h => by cases h) h demo_grammar (by decide) (by decide)

example : patResult false false false demo (strU [120, 121, 122]) = some (some (0, none)) := by decide +kernel

/-- The text is a view, and what follows it is not part of it. -/
example (o : Option Match) (h : exec P (viewU [120, 98, 9, 97, 46, 55] [121]) false 0 true = some (1, o)) :
    ∃ m, o = some m ∧ m.start ≤ m.stop ∧ m.stop ≤ 6 := by
  obtain ⟨m, i, j, g, h1, -, h2, h3, -⟩ := pattern_view_partial (k := 0) demo_spells (by decide) (fun h => absurd h (by decide)) (fun h => absurd h (by decide)) hP rfl demo_grammar demo_free
    (pre := []) (rest := text [121] ++ [0#8]) (cs := [120, 98, 9, 97, 46, 55]) ⟨by decide, rfl, rfl, .inr ⟨rfl, 121, 1, by decide⟩⟩ (by decide) h
  exact ⟨m, h1, h2, h3⟩

example (full : Bool) (cs : List Nat) (ht : Text cs) : ∃ ret o, exec P (strU cs) full 0 true = some (ret, o) ∧ (ret = 0 ∨ ret = 1) := by
  have := pattern_answers (k := 0) (full := full) demo_spells (by decide) hP demo_grammar (by decide +kernel) (strU_input ht) (.inl (Soft.of_none rfl)) (Nat.zero_le _)
  simpa [off, text] using this

/-- The whole of "a.7". -/
example (o : Option Match) (h : exec P (strU [97, 46, 55]) true 0 true = some (1, o)) := 
  pattern_fullmatch_partial (k := 0) demo_spells (by decide) (fun h => absurd h (by decide)) (by decide) hP rfl (strU_input (cs := [97, 46, 55]) (by decide)) (Soft.of_none rfl) (by decide) h

example : patResult false false true demo (strU [97, 46, 55]) = some (some (1, some (0, 3, ⟨some 2, 1⟩))) := by decide +kernel

end

/-! ### replacing and iterating -/

/-- "<$1>". -/
theorem reads_first : Reads [60, 36, 49, 62] [.chr 60, .ref 1, .chr 62] :=
  .cons (p := .chr 60) ⟨by decide, by decide⟩ (.cons (p := .ref 1) ⟨by decide, by rintro c - r' h; simp [Piece.show] at h⟩ (.cons (p := .chr 62) ⟨by decide, by decide⟩ .nil))

section
variable {P : Prog} (hP : regcomp false false demo.length demo = .ok (P, 1))
include hP

/-- Any text, in which each match is replaced by its group in angles. -/
example (cs : List Nat) (ht : Text cs) (count : Nat) : ∃ s' out, replacePro P 1 (strU cs) true 0 (text cs).length ([60, 36, 49, 62] ++ [0#8]) count (fun _ _ => none) true = some s' ∧
    Cstr.mem s' = some (out ++ [0#8]) ∧ Replaced (Sur.has false false U0) demoRe (fun gt => value 2 gt [.chr 60, .ref 1, .chr 62]) id count cs out :=
  replace_fits (E := strU cs) (pre := []) (rest := [0#8]) (copy := true) demo_spells (by decide) (by decide) hP rfl demo_grammar (by decide +kernel) reads_first rfl ht
    ⟨0, 1, by simp [strU, rune]⟩ (.inl ⟨rfl, fun h => absurd h (by decide), fun h => by cases h⟩) count

example (cs : List Nat) (ht : Text cs) : ∃ ms w, iterLoop P (strU cs) true (cs.length + 1) 0 = some (ms, true) ∧ Walk (Sur.has false false U0) demoRe cs 0 w ∧ ms.length = w.length := by
  obtain ⟨ms, w, h1, h2, h3⟩ := iterate_fits (k := 0) (f := cs.length + 1) demo_spells (by decide) (fun h => absurd h (by decide)) hP rfl demo_grammar (by decide +kernel) (strU_input ht) rfl
    (fun k _ => demo_covered cs k) (Nat.zero_le _) (by omega)
  exact ⟨ms, w, by simpa [off, text] using h1, h2, by
    clear h1 h2
    induction h3 with
    | nil => rfl
    | cons _ _ ih => simp [ih]⟩

example (cs : List Nat) (ht : Text cs) : ∃ ms w c, iterC P (strU cs) true (cs.length + 1) 0 = some ((ms, true), c) ∧ Walk (Sur.has false false U0) demoRe cs 0 w ∧
    c ≤ (ms.length + 1) * (228 * 21 * ((text cs).length + 1)) := by
  obtain ⟨ms, w, c, h1, h2, -, -, h3, -⟩ := matches_work_partial demo_spells (by decide) (fun h => absurd h (by decide)) hP rfl demo_grammar (by decide +kernel) (strU_input ht) rfl
    (fun k _ => demo_covered cs k) (cs.length + 1) 0 (Nat.zero_le _) (by omega)
  exact ⟨ms, w, c, by simpa [off, text] using h1, h2, h3⟩

end

/-- Matches of one character are not empty, so that a count above the length of the text is as good as any. -/
example (sub : (Nat → List Byte) → List Byte) (keep : List Byte → List Byte) (out : List Byte) (h : Replaced (Sur.has false false U0) (.one (.chr 97)) sub keep 4 [98, 97, 98] out) :
    Replaced (Sur.has false false U0) (.one (.chr 97)) sub keep 100 [98, 97, 98] out :=
  replaced_all (fun cs i h => by
    cases h with
    | one h => obtain ⟨c, -, -, h⟩ := h; omega) h (by decide) 100 (by decide)

/-- `x*` in "ab", replaced by "-". -/
example (P : Prog) (hP : regcomp false false 2 [120, 42] = .ok (P, 0)) : ∃ w, ∀ count, ∃ s', replacePro P 0 (strU [97, 98]) true 0 2 ([45] ++ [0#8]) count (fun _ _ => none) true = some s' ∧
    Cstr.mem s' = some ((List.replicate count w).flatten ++ text [97, 98] ++ [0#8]) := by
  obtain ⟨-, g, hb⟩ := replace_empty_case
  have hd : ∃ ret o, matchSv P (strU [97, 98]) true 0 2 = some (ret, o) ∧ ret ≠ -1 := by
    have key : (match regcomp false false 2 [120, 42] with
      | .ok (P, _) => ((matchSv P (strU [97, 98]) true 0 2).map (fun x => decide (x.1 ≠ -1))).getD false
      | _ => false) = true := by decide +kernel
    rw [hP] at key
    simp only at key
    cases hx : matchSv P (strU [97, 98]) true 0 2 with
    | none => rw [hx] at key; cases key
    | some y => rw [hx] at key; exact ⟨y.1, y.2, rfl, by simpa using key⟩
  exact replace_empty_never_advances (E := strU [97, 98]) (pre := []) (rest := [0#8]) (cs := [97, 98]) (l := [.one (.chr 120), .star]) (r := [45]) (ps := [.chr 45])
    (.tok (t := .one (.chr 120)) (fun a h => by cases h; exact ⟨by decide, by decide⟩) (fun h => by cases h) (.tok (t := .star) (fun a h => by cases h) (fun h => by cases h) .nil)) (by decide) (by decide) hP rfl
    (.seq (.item (.star .one))) (.cons (p := .chr 45) ⟨by decide, by decide⟩ .nil) rfl (by decide) ⟨0, 1, by decide⟩
    (.inl ⟨rfl, fun h => absurd h (by decide), fun h => by cases h⟩) hd hb

/-- Searching for `a` reads the whole of "bab". -/
example (P : Prog) (hc : regcomp false false 1 [97] = .ok (P, 0)) (x : Int × Option Match) (c : Nat) (h : execC P (strU [98, 97, 98]) false 0 true = some (x, c)) (hx : x.1 ≠ -1) : 3 ≤ c :=
  search_reads_all (k := 0) (l := [.one (.chr 97)]) (.tok (t := .one (.chr 97)) (fun a h => by cases h; exact ⟨by decide, by decide⟩) (fun h => by cases h) .nil) (by decide) hc
    (.seq (.item .one)) (by decide) (strU_input (cs := [98, 97, 98]) (by decide)) (.inl (Soft.of_none rfl)) (by decide) h hx

/-- `[0-9]+` and "<$0>" in "a12b3". -/
example : ∃ P s' out, regcomp false false 6 [91, 48, 45, 57, 93, 43] = .ok (P, 0) ∧
    replacePro P 0 (strU [97, 49, 50, 98, 51]) true 0 5 ([60, 36, 48, 62] ++ [0#8]) 9 (fun _ _ => none) true = some s' ∧ Cstr.mem s' = some (out ++ [0#8]) ∧ out = text [97, 60, 49, 50, 62, 98, 60, 51, 62] := by
  obtain ⟨P, s', out, h1, h2, h3, h4⟩ := runs_replaced (dot := false) (a := .cls false [.rng 48 57] false) (p := fun c => decide (48 ≤ c) && decide (c ≤ 57)) (E := strU [97, 49, 50, 98, 51]) (U := U0)
    (pre := []) (rest := []) (junk := []) (r := [60, 36, 48, 62]) (ps := [.chr 60, .ref 0, .chr 62]) (tr := fun _ _ => none) (copy := true) (cs := [97, 49, 50, 98, 51]) (bytes := 6) (count := 9)
    (by simp [Sur.ok, Spec.Item.ok, Spec.Placed, Spec.Item.placed, Spec.plainIn]) (by decide) rfl (fun cs i j => by simp [Sur.has, Char1, Spec.Item.has]) rfl
    (.cons (p := .chr 60) ⟨by decide, by decide⟩ (.cons (p := .ref 0) ⟨by decide, by rintro c - r' h; simp [Piece.show] at h⟩ (.cons (p := .chr 62) ⟨by decide, by decide⟩ .nil))) rfl (by decide) (by decide)
  exact ⟨P, s', out, h1, h2, h3, h4.trans (by decide +kernel)⟩

/-- `[0-9]+` in "a12b3". -/
example : ∃ P ms, regcomp false false 6 [91, 48, 45, 57, 93, 43] = .ok (P, 0) ∧ iterLoop P (strU [97, 49, 50, 98, 51]) true 9 0 = some (ms, true) ∧
    ms.map (fun x => (x.start, x.stop)) = [(1, 3), (4, 5)] := by
  obtain ⟨P, ms, h1, h2, h3⟩ := runs_visited (dot := false) (a := .cls false [.rng 48 57] false) (p := fun c => decide (48 ≤ c) && decide (c ≤ 57)) (E := strU [97, 49, 50, 98, 51]) (U := U0) (pre := [])
    (bytes := 6) (f := 9)
    (by simp [Sur.ok, Spec.Item.ok, Spec.Placed, Spec.Item.placed, Spec.plainIn]) (by decide) rfl (fun cs i j => by simp [Sur.has, Char1, Spec.Item.has]) rfl (strU_input (by decide)) rfl (by decide)
  exact ⟨P, ms, h1, h2, h3.trans (by decide +kernel)⟩

/-- The words of "né 4x". -/
example := words_visited (E := strT [110, 233, 32, 52, 120]) (f := 9) (fun r => (tab_means r).1) rfl (strT_input (by decide)) rfl (by decide)

/-! ### flags -/

/-- `(?i)x` is executed like `x` compiled with CREG_ICASE, behind a mark for the mode. -/
example (P : Prog) (hP : regcomp false false 5 [40, 63, 105, 41, 120] = .ok (P, 0)) :=
  flags_exec (dot := false) (bytes := 5) (on := [105]) (off := []) (s := [120]) (l := [.one (.chr 120)]) (ic := false) (by simp [Letters]) (by simp [Letters])
    (.tok (t := .one (.chr 120)) (fun a h => by cases h; unfold Sur.ok; decide) (fun h => by cases h) .nil) (by decide) (.seq (.item .one)) (.inr (.inr (by decide))) hP

example : ∃ P, regcomp false false 5 [40, 63, 105, 41, 120] = .ok (P, 0) := ⟨_, rfl⟩

/-! ### below the syntax -/

/-- The tokens of `(a|b)*c`. -/
def starToks : List (Tok Op) := [.lpar] ++ lits [97] ++ [.bar] ++ lits [98] ++ [.rpar, .star] ++ lits [99]
def starRe : Re Op := .cat (.star (.grp 1 (.alt (.one (.rune 97)) (.one (.rune 98))))) (.one (.rune 99))

theorem starToks_grammar : G 0 0 starToks starRe 1 :=
  .seq (.cat (ts := [.lpar, .one (Op.rune 97), .bar, .one (Op.rune 98), .rpar, .star]) (.item (.star (ts := [.lpar, .one (Op.rune 97), .bar, .one (Op.rune 98), .rpar]) (.grp (ts := [.one (Op.rune 97), .bar, .one (Op.rune 98)])
    (.alt (ts := [.one (Op.rune 97)]) (.seq (.item .one)) (.item .one))))) .one)

example : compile 100 false starToks ≠ .ub := compile_not_ub (fun o ho => by simp [starToks, lits] at ho; rcases ho with rfl | rfl | rfl <;> rfl) (by decide)

section
variable {P : Prog} (hP : compile 100 false starToks = .ok (P, 1))
include hP

theorem starToks_plain : ∀ o, Tok.one o ∈ starToks → plainOp false o = true := by
  intro o ho
  simp [starToks, lits] at ho
  rcases ho with rfl | rfl | rfl <;> decide

example : ∃ ρ, Ranked P ρ := compile_ranked hP

example (full : Bool) (cs : List Nat) (ht : Text cs) : ∃ ret o, exec P (str cs) full 0 true = some (ret, o) ∧ ret ≠ -1 := by
  have := regex_answers (k := 0) (full := full) (starToks_plain hP) hP starToks_grammar (by decide) (str_input ht) (.inl (Soft.of_none rfl)) (Nat.zero_le _)
  simpa [off, text] using this

example (cs : List Nat) (ht : Text cs) (o : Option Match) (h : exec P (str cs) false 0 true = some (1, o)) :=
  regex_match_sound_partial (k := 0) (starToks_plain hP) (fun h => absurd h (by decide)) (by decide) hP (str_input ht) (Soft.of_none rfl) (Nat.zero_le _) h

example (cs : List Nat) (ret : Int) (o : Option Match) (h : exec P (str cs) false 0 true = some (ret, o)) : ret = 1 ∨ ret = 0 ∨ ret = -1 :=
  regex_match_results (starToks_plain hP) hP (.inl (Soft.of_none rfl)) h

example (cs : List Nat) (ht : Text cs) (o : Option Match) (h : exec P (str cs) true 0 true = some (1, o)) :=
  regex_fullmatch_partial (k := 0) (starToks_plain hP) (fun h => absurd h (by decide)) (by decide) hP (str_input ht) (Soft.of_none rfl) (Nat.zero_le _) h

example (cs : List Nat) (ht : Text cs) (ret : Int) (o : Option Match) (h : exec P (str cs) false 0 true = some (ret, o)) (hr : ret ≠ -1) :=
  regex_leftmost_longest_partial (k := 0) (starToks_plain hP) (fun h => absurd h (by decide)) hP (str_input ht) (Soft.of_none rfl) (Nat.zero_le _) (fun h => absurd h (by decide)) (fun h => by cases h) h hr

example (cs : List Nat) (ht : Text cs) (o : Option Match) (h : exec P (str cs) false 0 true = some (0, o)) :=
  regex_nomatch_partial (k := 0) (starToks_plain hP) (fun h => absurd h (by decide)) hP (str_input ht) (Soft.of_none rfl) (Nat.zero_le _) (fun h => absurd h (by decide)) (fun h => by cases h) h

end

example : ∃ P, compile 100 false starToks = .ok (P, 1) := ⟨_, rfl⟩

/-- The empty pattern in "a". -/
example (P : Prog) (hP : compile 100 false [] = .ok (P, 0)) (o : Option Match) (h : exec P (str [97]) false 0 true = some (1, o)) :=
  regex_empty_pattern (k := 0) hP (str_input (cs := [97]) (by decide)) (Soft.of_none rfl) (by decide) h

end Verif.Regex
