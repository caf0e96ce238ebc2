import Verif.Regex.ReplaceLemmas
/-
The properties of replacing and of going through the matches. The hypothesis `hdef` of the theorems says
that the matcher neither fails nor runs out of threads on the rest of the text. `Covered` are the cases in which the fast check of the first character
does no harm.
-/
namespace Verif.Regex
open Verif.Utf8 (Byte casefold)
open Verif.Utf8.Spec (text Text)
open Verif.Cstr (Str)
open Spec (Tok Re G Parse Groups Matches Sur Spells Piece Reads value digit groupText NoMatch Replaced Walk)

/-! ### the text of a replacement -/

section
variable {n : Nat} {grp : Nat → Option (List Byte)} {gt : Nat → List Byte} {r junk old : List Byte} {s : Str} {ps : List Piece}

/-- `$3` and `$12;` stand for the groups, `$$` for a `$`, everything else for itself. The string may have
been anything before. -/
theorem substitution_text (hg : ∀ k < n, grp k = some (gt k)) (h : Reads r ps) (hs : Cstr.Rep old s) :
    ∃ s', buildSub (r ++ 0#8 :: junk) n grp s = some s' ∧ Cstr.mem s' = some (value n gt ps ++ [0#8]) := by
  obtain ⟨s', e, h⟩ := buildSub_reads hg (junk := junk) h hs
  exact ⟨s', e, Cstr.mem_eq h⟩

theorem digit_inj {a b : Nat} (ha : a ≤ 9) (hb : b ≤ 9) (h : digit a = digit b) : a = b := by
  have := congrArg (fun x : Byte => x.toNat - 48) h
  simp only [(digit_isDig ha).2.1, (digit_isDig hb).2.1] at this
  exact this

theorem digit_dollar {a : Nat} (ha : a ≤ 9) : digit a ≠ 36#8 := fun h => by
  have := (isDig_digit (digit_isDig ha).1).2.2
  exact this h

/-- Every text has exactly one reading as a replacement. -/
theorem substitution_unambiguous (h0 : 0#8 ∉ r) : ∃ ps, Reads r ps ∧ ∀ ps', Reads r ps' → ps' = ps := by
  obtain ⟨ps, h⟩ := reads_total r.length r (Nat.le_refl _) h0
  refine ⟨ps, h, ?_⟩
  clear h0
  induction h with
  | nil =>
    intro ps' h
    generalize hr : ([] : List Byte) = r at h
    cases h with
    | nil => rfl
    | @cons p r' ps hp _ => cases p <;> simp [Piece.show] at hr
  | @cons p r ps hp hr ih =>
    intro ps' h
    generalize hx : p.show ++ r = x at h
    cases h with
    | nil => cases p <;> simp [Piece.show] at hx
    | @cons q r' qs hq hr' =>
      have key : p = q ∧ r = r' := by
        cases p with
        | chr b =>
          cases q with
          | chr c => simp only [Piece.show, List.cons_append, List.nil_append, List.cons.injEq] at hx; exact ⟨by rw [hx.1], hx.2⟩
          | dollar => simp only [Piece.show, List.cons_append, List.nil_append, List.cons.injEq] at hx; exact absurd (by rw [hx.2]; rfl) (hp.2 hx.1).1
          | ref d => simp only [Piece.show, List.cons_append, List.nil_append, List.cons.injEq] at hx; exact absurd (by rw [hx.2]; rfl) ((hp.2 hx.1).2 d hq.1)
          | ref2 a c => simp only [Piece.show, List.cons_append, List.nil_append, List.cons.injEq] at hx; exact absurd (by rw [hx.2]; rfl) ((hp.2 hx.1).2 a hq.1)
        | dollar =>
          cases q with
          | chr c => simp only [Piece.show, List.cons_append, List.nil_append, List.cons.injEq] at hx; exact absurd (by rw [← hx.2]; rfl) (hq.2 hx.1.symm).1
          | dollar => simp only [Piece.show, List.cons_append, List.nil_append, List.cons.injEq] at hx; exact ⟨rfl, hx.2.2⟩
          | ref d => simp only [Piece.show, List.cons_append, List.nil_append, List.cons.injEq] at hx; exact absurd hx.2.1.symm (digit_dollar hq.1)
          | ref2 a c => simp only [Piece.show, List.cons_append, List.nil_append, List.cons.injEq] at hx; exact absurd hx.2.1.symm (digit_dollar hq.1)
        | ref d =>
          cases q with
          | chr c => simp only [Piece.show, List.cons_append, List.nil_append, List.cons.injEq] at hx; exact absurd (by rw [← hx.2]; rfl) ((hq.2 hx.1.symm).2 d hp.1)
          | dollar => simp only [Piece.show, List.cons_append, List.nil_append, List.cons.injEq] at hx; exact absurd hx.2.1 (digit_dollar hp.1)
          | ref d' => simp only [Piece.show, List.cons_append, List.nil_append, List.cons.injEq] at hx; exact ⟨by rw [digit_inj hp.1 hq.1 hx.2.1], hx.2.2⟩
          | ref2 a c => simp only [Piece.show, List.cons_append, List.nil_append, List.cons.injEq] at hx; exact absurd hx.2.2 (hp.2 c hq.2 r')
        | ref2 a b =>
          cases q with
          | chr c => simp only [Piece.show, List.cons_append, List.nil_append, List.cons.injEq] at hx; exact absurd (by rw [← hx.2]; rfl) ((hq.2 hx.1.symm).2 a hp.1)
          | dollar => simp only [Piece.show, List.cons_append, List.nil_append, List.cons.injEq] at hx; exact absurd hx.2.1 (digit_dollar hp.1)
          | ref d' => simp only [Piece.show, List.cons_append, List.nil_append, List.cons.injEq] at hx; exact absurd hx.2.2.symm (hq.2 b hp.2 r)
          | ref2 c d =>
            simp only [Piece.show, List.cons_append, List.nil_append, List.cons.injEq] at hx
            exact ⟨by rw [digit_inj hp.1 hq.1 hx.2.1, digit_inj hp.2 hq.2 hx.2.2.1], hx.2.2.2.2⟩
      obtain ⟨rfl, rfl⟩ := key
      rw [ih qs hr']

/-- "<$1>$$$12;$9" with two groups: the groups 12 and 9 do not exist. -/
example : ∃ s', buildSub ([60, 36, 49, 62, 36, 36, 36, 49, 50, 59, 36, 57] ++ 0#8 :: []) 3 (fun k => some (List.replicate (10 * k) 65#8)) Cstr.empty = some s' ∧
    Cstr.mem s' = some ([60] ++ List.replicate 10 65 ++ [62, 36] ++ [0#8]) :=
  substitution_text (ps := [.chr 60, .ref 1, .chr 62, .dollar, .ref2 1 2, .ref 9]) (fun _ _ => rfl)
    (.cons (p := .chr 60) ⟨by decide, by decide⟩ (.cons (p := .ref 1) ⟨by decide, by rintro c - r' h; simp [Piece.show] at h⟩ (.cons (p := .chr 62) ⟨by decide, by decide⟩ (.cons (p := .dollar) trivial
      (.cons (p := .ref2 1 2) ⟨by decide, by decide⟩ (.cons (p := .ref 9) ⟨by decide, by rintro c - r' h; cases h⟩ .nil)))))) Cstr.rep_empty

end

/-! ### replacing (C70) -/

section
variable {n k bytes : Nat} {ic dot full alloc copy : Bool} {s : List Nat} {l : List (Tok Sur)} {P : Prog} {E : Env} {U : Test → Nat → Bool} {cs : List Nat} {pre rest : List Byte} {e : Re Sur}
  {r junk : List Byte} {ps : List Piece} {tr : Nat → List Byte → Option (List Byte)}

/-- Replacing is defined, and replaces in the order of the text, `count` times or until there are no more
matches, the leftmost longest match of what is behind the replaced part before. With CREG_STRIP (`copy` is
false) only the replacements are kept. Missing from the full claim: the patterns with `\b` (each round sees
only the rest of the text), the patterns and texts that are not `Covered`; and that there are enough threads. -/
theorem replace_partial (hs : Spells ic s l) (hn : (l.filter isCls).length ≤ 16) (hw : Tok.one Sur.wb ∉ l) (hc : regcomp ic dot bytes s = .ok (P, n)) (hU : E.grp = grpOf U) (hg : G 0 0 l e n)
    (hps : Reads r ps) (hm : E.m = pre ++ text cs ++ rest) (ht : Text cs) (hend : ∃ x y, rune E.m (pre.length + (text cs).length) = some (x, y))
    (hcov : Covered ic l e (rest.head? = some 0#8) cs 0) (hdef : ∀ j ≤ cs.length, ∃ ret o, matchSv P E alloc (off pre cs j) (text (cs.drop j)).length = some (ret, o) ∧ ret ≠ -1) (count : Nat) :
    ∃ s' out, replacePro P n E alloc pre.length (text cs).length (r ++ 0#8 :: junk) count tr copy = some s' ∧ Cstr.mem s' = some (out ++ [0#8]) ∧
      Replaced (Sur.has ic dot U) e (fun gt => value (n + 1) (fun k => (tr k (gt k)).getD (gt k)) ps) (fun b => if copy then b else []) count cs out := by
  obtain ⟨s', ys, h1, h2, h3⟩ := replaceLoop_spec (junk := junk) (tr := tr) (copy := copy) hs hn hw hc hU hg hps hend count pre cs Cstr.empty Cstr.empty [] [] hm rfl ht hcov hdef Cstr.rep_empty Cstr.rep_empty
  exact ⟨s', ys, h1, Cstr.mem_eq h2, h3⟩

/-- If the pattern does not match the empty text then all matches are replaced as soon as the count is
greater than the length of the text: a greater count makes no difference. -/
theorem replaced_all {α : Type} {R : List Nat → α → Nat → Nat → Prop} {e : Re α} {sub : (Nat → List Byte) → List Byte} {keep : List Byte → List Byte} (hne : ∀ cs i, ¬ Matches (R cs) e i i) :
    ∀ {c : Nat} {cs : List Nat} {out : List Byte}, Replaced R e sub keep c cs out → cs.length < c → ∀ c', cs.length < c' → Replaced R e sub keep c' cs out := by
  intro c cs out h
  induction h with
  | stop => intro h; omega
  | none h =>
    intro _ c' hc'
    obtain ⟨c', rfl⟩ : ∃ x, c' = x + 1 := ⟨c' - 1, by omega⟩
    exact .none h
  | @step c cs i j g out hb _ ih =>
    intro hc c' hc'
    obtain ⟨c', rfl⟩ : ∃ x, c' = x + 1 := ⟨c' - 1, by omega⟩
    have hj : 0 < j := by
      rcases Nat.eq_zero_or_pos j with rfl | h
      · have := hb.2.1
        obtain rfl : i = 0 := by omega
        exact absurd (parse_matches hb.2.2.2.1) (hne cs 0)
      · exact h
    have := hb.2.2.1
    exact .step hb (ih (by rw [List.length_drop]; omega) c' (by rw [List.length_drop]; omega))

/-- **The claim C70 is false for the patterns that match the empty text.** If the leftmost longest match
is empty and at the beginning then it is replaced again and again, without going on: the result is `count`
times the same replacement, and then the whole text. (For `cregex_replace`, `count` is INT32_MAX.) -/
theorem replace_empty_never_advances (hs : Spells ic s l) (hn : (l.filter isCls).length ≤ 16) (hw : Tok.one Sur.wb ∉ l) (hc : regcomp ic dot bytes s = .ok (P, n)) (hU : E.grp = grpOf U) (hg : G 0 0 l e n)
    (hps : Reads r ps) (hm : E.m = pre ++ text cs ++ rest) (ht : Text cs) (hend : ∃ x y, rune E.m (pre.length + (text cs).length) = some (x, y))
    (hcov : Covered ic l e (rest.head? = some 0#8) cs 0) (hdef : ∃ ret o, matchSv P E alloc pre.length (text cs).length = some (ret, o) ∧ ret ≠ -1)
    {g : Groups} (hb : Spec.Best (Sur.has ic dot U cs) e cs.length 0 0 0 g) :
    ∃ w, ∀ count, ∃ s', replacePro P n E alloc pre.length (text cs).length (r ++ 0#8 :: junk) count tr true = some s' ∧
      Cstr.mem s' = some ((List.replicate count w).flatten ++ text cs ++ [0#8]) := by
  have hin : Input (viewEnv E cs pre) cs pre rest := ⟨ht, hm, rfl, .inr ⟨rfl, hend⟩⟩
  have hsoft : rest.head? = some 0#8 → Soft (viewEnv E cs pre) := by
    intro h0 z hz
    obtain rfl := Option.some.inj hz
    cases rest with
    | nil => cases h0
    | cons b rest =>
      cases h0
      show E.m[_]? = _
      rw [hm, show pre.length + (text cs).length = (pre ++ text cs).length by simp]
      simp
  obtain ⟨ret, o, hx, hret⟩ := hdef
  have hx' : exec P (viewEnv E cs pre) false (off pre cs 0) alloc = some (ret, o) := by rw [off_zero]; exact hx
  rcases round (E := viewEnv E cs pre) hs hn (fun h => absurd h hw) hc hU hg hin (hcov.mono hsoft) (by omega) hx' hret with ⟨rfl, x, i, j, g', rfl, hb', h1, h2, h3⟩ | ⟨rfl, hno⟩
  · obtain rfl : i = 0 := by have := (hb'.2.2.2.2 0 0 (by omega) (by omega) (parse_matches hb.2.2.2.1)).1; omega
    obtain rfl : j = 0 := by
      have := (hb.2.2.2.2 0 j (by omega) (by omega) (parse_matches hb'.2.2.2.1)).2 rfl
      omega
    rw [off_zero] at h1 h2
    have hgr : ∀ k a m, g' k = some (a, m) → a + m ≤ cs.length := by
      intro k a m hk
      rcases (parse_groups (fun _ _ _ h => has_le h) hb'.2.2.2.1).2 k a m hk with h | h
      · cases h
      · omega
    have hgb := fun y => groupBytes_eq hin (tr := tr) (Nat.le_refl 0) (by omega) (by rw [off_zero]; exact h1) (by rw [off_zero]; exact h2) h3 hgr y
    generalize (fun y => (tr y (text (groupText cs 0 0 g' y))).getD (text (groupText cs 0 0 g' y))) = gt at hgb
    refine ⟨value (n + 1) (fun y => (tr y (text (groupText cs 0 0 g' y))).getD (text (groupText cs 0 0 g' y))) ps, fun count => ?_⟩
    have loop : ∀ (c : Nat) (out subst : Str) (xs old : List Byte), Cstr.Rep xs out → Cstr.Rep old subst →
        ∃ s', replaceLoop P E alloc (n + 1) (r ++ 0#8 :: junk) tr true c pre.length (text cs).length out subst = some s' ∧
          Cstr.Rep (xs ++ (List.replicate c (value (n + 1) (fun y => (tr y (text (groupText cs 0 0 g' y))).getD (text (groupText cs 0 0 g' y))) ps)).flatten ++ text cs) s' := by
      intro c
      induction c with
      | zero =>
        intro out subst xs old ho hsu
        obtain ⟨s', e1, q⟩ := Cstr.appendN_rep ho (src := .ext (E.m.drop pre.length)) (n := (text cs).length) (by simp [Cstr.Src.ok, hm])
        exact ⟨s', by simp [replaceLoop, e1], by simpa [Cstr.Src.bytes, hm] using q⟩
      | succ c ih =>
        intro out subst xs old ho hsu
        rw [replaceLoop, hx, Option.bind_some]
        simp only
        obtain ⟨s1, e1, hs1⟩ := buildSub_reads (fun k (_ : k < n + 1) => hgb k) (junk := junk) hps hsu
        have e1' : buildSub (r ++ 0#8 :: junk) (n + 1) (groupBytes E.m tr x) subst = some s1 := e1
        rw [e1', Option.bind_some, if_neg (by simp [h1]), Option.bind_some, Cstr.mem_eq hs1, Option.bind_some]
        obtain ⟨s3, e3, ho''⟩ := Cstr.appendN_rep ho (src := .ext (value (n + 1) (fun y => (tr y (text (groupText cs 0 0 g' y))).getD (text (groupText cs 0 0 g' y))) ps ++ [0#8]))
          (n := (value (n + 1) (fun y => (tr y (text (groupText cs 0 0 g' y))).getD (text (groupText cs 0 0 g' y))) ps).length) (by simp [Cstr.Src.ok])
        have hgb' : ∃ d c, Cstr.getbuf s1 = some (d, (value (n + 1) (fun y => (tr y (text (groupText cs 0 0 g' y))).getD (text (groupText cs 0 0 g' y))) ps).length, c) := by
          obtain ⟨d, c, h⟩ := hs1
          exact ⟨d, c, Cstr.getbuf_eq h⟩
        obtain ⟨d, c', hgb'⟩ := hgb'
        rw [hgb', Option.bind_some, e3, Option.bind_some, if_neg (by omega), h2, show pre.length + (text cs).length - pre.length = (text cs).length by omega]
        simp only [Cstr.Src.bytes, List.take_left] at ho''
        obtain ⟨s', e4, h4⟩ := ih s3 s1 _ _ ho'' hs1
        exact ⟨s', e4, by simpa [List.replicate_succ, List.append_assoc] using h4⟩
    obtain ⟨s', e1, h4⟩ := loop count Cstr.empty Cstr.empty [] [] Cstr.rep_empty Cstr.rep_empty
    exact ⟨s', e1, by rw [Cstr.mem_eq h4]; rfl⟩
  · exact absurd (parse_matches hb.2.2.2.1) (hno 0 0 (by omega) (by omega))

/-! ### going through the matches -/

/-- `c_match` ends, and visits the successive leftmost longest matches, up to the first one that is empty.
The rounds are bounded by the length of the text. Missing from the full claim: the texts that are not
`Covered`, and that there are enough threads. -/
theorem iterate_partial (hs : Spells ic s l) (hn : (l.filter isCls).length ≤ 16) (hw : Tok.one Sur.wb ∈ l → Edges E cs) (hc : regcomp ic dot bytes s = .ok (P, n)) (hU : E.grp = grpOf U) (hg : G 0 0 l e n)
    (hin : Input E cs pre rest) (heol : E.eol = none) (hcov : ∀ k ≤ cs.length, Covered ic l e True cs k)
    (hdef : ∀ k ≤ cs.length, ∃ ret o, exec P E false (off pre cs k) alloc = some (ret, o) ∧ ret ≠ -1) :
    ∀ {f k : Nat}, k ≤ cs.length → cs.length - k < f → ∃ ms w, iterLoop P E alloc f (off pre cs k) = some (ms, true) ∧ Walk (Sur.has ic dot U) e cs k w ∧
      List.Forall₂ (fun x y => x.start = off pre cs y.1 ∧ x.stop = off pre cs y.2.1 ∧ ∀ z, x.sub z = subOf (mapG pre cs y.2.2 z)) ms w := by
  have hE : { E with eol := none } = E := by cases E; simp only [Env.mk.injEq, true_and]; exact ⟨heol.symm, trivial⟩
  intro f
  induction f with
  | zero => intro k _ h; omega
  | succ f ih =>
    intro k hk hf
    obtain ⟨ret, o, hx, hret⟩ := hdef k hk
    rw [iterLoop, hE, hx, Option.bind_some]
    rcases round hs hn hw hc hU hg hin ((hcov k hk).mono (fun _ => Soft.of_none heol)) hk hx hret with ⟨rfl, x, i, j, g, rfl, hb, h1, h2, h3⟩ | ⟨rfl, hno⟩
    · simp only
      have hij := hb.2.1
      have hj := hb.2.2.1
      have hki := hb.1
      by_cases he : i = j
      · subst he
        rw [if_pos (by rw [h1, h2])]
        exact ⟨[], [], rfl, .empty hb, .nil⟩
      · rw [if_neg (fun h => he (off_inj (pre := pre) (cs := cs) (by omega) (by omega) (by rw [← h1, ← h2, h])))]
        obtain ⟨ms, w, e1, e2, e3⟩ := ih (k := j) hj (by omega)
        refine ⟨x :: ms, (i, j, g) :: w, ?_, .step hb (by omega) e2, .cons ⟨h1, h2, h3⟩ e3⟩
        rw [h2, e1]
        rfl
    · exact ⟨[], [], rfl, .none hno, .nil⟩

/-- Matches that are visited do not overlap, are not empty, and are in the order of the text. -/
theorem walk_ordered {α : Type} {R : List Nat → α → Nat → Nat → Prop} {e : Re α} {cs : List Nat} {k : Nat} {w : List (Nat × Nat × Groups)} (h : Walk R e cs k w) :
    (∀ y ∈ w, k ≤ y.1 ∧ y.1 < y.2.1 ∧ y.2.1 ≤ cs.length ∧ Matches (R cs) e y.1 y.2.1) ∧ w.Pairwise (fun x y => x.2.1 ≤ y.1) := by
  induction h with
  | none _ => simp
  | empty _ => simp
  | @step k i j g l hb hlt _ ih =>
    obtain ⟨h1, h2, h3, h4, -⟩ := hb
    refine ⟨fun y hy => ?_, List.pairwise_cons.2 ⟨fun y hy => (ih.1 y hy).1, ih.2⟩⟩
    rcases List.mem_cons.1 hy with rfl | hy
    · exact ⟨h1, hlt, h3, parse_matches h4⟩
    · obtain ⟨q1, q2⟩ := ih.1 y hy
      exact ⟨by omega, q2⟩

end

/-! ### cases, and what fails -/

section

/-- The result of replacing in a text with its terminator: compiling, replacing, the bytes of the result. -/
def repResult (copy : Bool) (s cs : List Nat) (repl : List Byte) (count : Nat) : Option (Option (List Byte)) :=
  match regcomp false false s.length s with
  | .ok (P, n) => some ((replacePro P n (strU cs) true 0 (text cs).length (repl ++ [0#8]) count (fun _ _ => none) copy).bind Cstr.mem)
  | _ => none

/-- The pattern `[a-c\t]+\.(\d|\Q*\E)` with "<$1>" in "xb\ta.7ya.*": "x<7>y<*>". -/
example : repResult true demo [120, 98, 9, 97, 46, 55, 121, 97, 46, 42] [60, 36, 49, 62] 9 = some (some ([120, 60, 55, 62, 121, 60, 42, 62] ++ [0])) := by decide +kernel

/-- Only once; and only the replacements. -/
example : repResult true demo [120, 98, 9, 97, 46, 55, 121, 97, 46, 42] [60, 36, 49, 62] 1 = some (some ([120, 60, 55, 62, 121, 97, 46, 42] ++ [0])) ∧
    repResult false demo [120, 98, 9, 97, 46, 55, 121, 97, 46, 42] [60, 36, 49, 62] 9 = some (some ([60, 55, 62, 60, 42, 62] ++ [0])) := ⟨by decide +kernel, by decide +kernel⟩

/-- The hypotheses of `replace_partial` for it. -/
example : Covered false demoToks demoRe (([0#8] : List Byte).head? = some 0#8) [120, 98, 9, 97, 46, 55, 121] 0 := by
  refine .inl ⟨rfl, fun h => ?_, fun h => by cases h⟩
  exact absurd h (by decide)

example : ∀ P n, regcomp false false demo.length demo = .ok (P, n) → ∀ j ≤ 7, ∃ ret o, matchSv P (strU [120, 98, 9, 97, 46, 55, 121]) true (off [] [120, 98, 9, 97, 46, 55, 121] j) (text ([120, 98, 9, 97, 46, 55, 121].drop j)).length = some (ret, o) ∧ ret ≠ -1 := by
  intro P n h j hj
  have key : ∀ j < 8, (match regcomp false false demo.length demo with
      | .ok (P, _) => ((matchSv P (strU [120, 98, 9, 97, 46, 55, 121]) true (off [] [120, 98, 9, 97, 46, 55, 121] j) (text ([120, 98, 9, 97, 46, 55, 121].drop j)).length).map (fun x => decide (x.1 ≠ -1))).getD false
      | _ => false) = true := by decide +kernel
  have := key j (by omega)
  rw [h] at this
  simp only at this
  cases hx : matchSv P (strU [120, 98, 9, 97, 46, 55, 121]) true (off [] [120, 98, 9, 97, 46, 55, 121] j) (text ([120, 98, 9, 97, 46, 55, 121].drop j)).length with
  | none => rw [hx] at this; cases this
  | some y => rw [hx] at this; exact ⟨y.1, y.2, rfl, by simpa using this⟩

/-- A pattern that does not match the empty text. -/
example : ∀ cs i, ¬ Matches (Sur.has false false U0 cs) (.one (.chr 97)) i i := by
  intro cs i h
  cases h with
  | one h => obtain ⟨c, -, -, h⟩ := h; omega

/-- `x*` in "ab", 3 times "-": "---ab". -/
theorem replace_empty_case : repResult true [120, 42] [97, 98] [45] 3 = some (some ([45, 45, 45, 97, 98] ++ [0])) ∧
    ∃ g, Spec.Best (Sur.has false false U0 [97, 98]) (.star (.one (.chr 120))) 2 0 0 0 g := by
  refine ⟨by decide +kernel, fun _ => none, by omega, by omega, by omega, .starNil, fun i' j' _ hi' hm => ⟨by omega, ?_⟩⟩
  rintro rfl
  cases hm with
  | starNil => omega
  | starCons h _ =>
    cases h with
    | one h =>
      obtain ⟨c, h1, h2, -⟩ := h
      cases h1
      simp [Spec.Same] at h2

/-- What is behind a replaced part is a text of its own: `^a` in "aab" is replaced twice. -/
theorem replace_caret_again : repResult true [94, 97] [97, 97, 98] [45] 9 = some (some ([45, 45, 98] ++ [0])) := by decide +kernel

/-- Also for word boundaries: `\ba` in "aab" is replaced twice, although there is no boundary between the
two letters. -/
theorem replace_boundary_again : repResult true [92, 98, 97] [97, 97, 98] [45] 9 = some (some ([45, 45, 98] ++ [0])) := by decide +kernel

/-- An error of the matcher is not reported: `(a*|b*)*` in "ab" leaves it as it is. -/
theorem replace_hides_error : repResult true [40, 97, 42, 124, 98, 42, 41, 42] [97, 98] [45] 9 = some (some ([97, 98] ++ [0])) := by decide +kernel

/-- The number of matches visited, and whether the loop has ended. -/
def iterResult (s cs : List Nat) (rounds : Nat) : Option (Option (List (Nat × Nat) × Bool)) :=
  match regcomp false false s.length s with
  | .ok (P, _) => some ((iterLoop P (strU cs) true rounds 0).map fun x => (x.1.map fun y => (y.start, y.stop), x.2))
  | _ => none

/-- `[ab]+` in "abxaab": two matches. -/
example : iterResult [91, 97, 98, 93, 43] [97, 98, 120, 97, 97, 98] 7 = some (some ([(0, 2), (3, 6)], true)) := by decide +kernel

/-- `a*` in "baa": the loop ends before the match "aa", because there is an empty match before it. -/
theorem iterate_stops_at_empty : iterResult [97, 42] [98, 97, 97] 4 = some (some ([], true)) ∧
    Matches (Sur.has false false U0 [98, 97, 97]) (.star (.one (.chr 97))) 1 3 :=
  ⟨by decide +kernel, .starCons (j := 2) (.one ⟨97, rfl, by simp [Spec.Same], rfl⟩) (.starCons (j := 3) (.one ⟨97, rfl, by simp [Spec.Same], rfl⟩) .starNil)⟩

end

end Verif.Regex
