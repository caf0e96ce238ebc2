import Verif.Regex.Text
import Verif.Regex.Unique
/-
The properties of matching (cregex_prv.c, compiled from symbols), on texts given as code points.
`exec` is the whole of `_regexec`; the result 1 is CREG_OK, 0 is CREG_NOMATCH, -1 is CREG_MATCHERROR.
-/
namespace Verif.Regex
open Verif.Utf8 (Byte casefold)
open Verif.Utf8.Spec (Scalar enc text Text)
open Spec (Tok Re G Parse Groups Matches Atom plainOp Char1 Lit InClass)

/-! ### lemmas -/

theorem plain_atom {ic : Bool} {o : Op} (h : plainOp ic o = true) : atom o = true := by
  cases o <;> first | rfl | cases h

theorem plain_ok {ic : Bool} {o : Op} (h : plainOp ic o = true) : okOp ic o := by
  unfold okOp
  cases o <;> cases ic <;> first | (cases h; done) | (refine ⟨?_, ?_, ?_, ?_⟩ <;> simp)

section
variable {cap n k : Nat} {ic full alloc : Bool} {ts : List (Tok Op)} {P : Prog} {E : Env} {cs : List Nat} {pre rest : List Byte} {o : Option Match} {ret : Int}

theorem compile_uniform (hp : ∀ o, Tok.one o ∈ ts → plainOp ic o = true) (hc : compile cap ic ts = .ok (P, n)) : Uniform P := by
  obtain ⟨rfl, h, -⟩ := compile_means (fun o ho => plain_atom (hp o ho)) hc
  refine h (okOp P.icase) ?_ ?_ ?_ ?_ ?_ (fun o ho => plain_ok (hp o ho))
  all_goals simp [okOp]

theorem exec_split {s : Nat} (hx : exec P E full s alloc = some (ret, o)) : (ret = -1 ∧ o = none) ∨ ∃ cap, exec1 P E full cap s = some (ret, o) := by
  unfold exec at hx
  cases h : exec1 P E full 10 s with
  | none => rw [h] at hx; cases hx
  | some x =>
    rw [h, Option.bind_some] at hx
    split at hx
    · cases hx; exact .inr ⟨10, h⟩
    · split at hx
      · exact .inr ⟨100, hx⟩
      · cases hx; exact .inl ⟨rfl, rfl⟩

theorem good_text (hp : ∀ o, Tok.one o ∈ ts → plainOp ic o = true) (hz : Tok.one Op.eoz ∈ ts → Soft E) (hw : Tok.one Op.wbound ∈ ts → Edges E cs) (hc : compile cap ic ts = .ok (P, n))
    (hin : Input E cs pre rest) (hk : k ≤ cs.length) {b : Match} (hb : Good P E (off pre cs k) b) :
    ∃ i j, k ≤ i ∧ i ≤ j ∧ j ≤ cs.length ∧ b.start = off pre cs i ∧ b.stop = off pre cs j ∧
      ((ts = [] ∧ n = 0 ∧ i = j) ∨ ∃ e g, G 0 0 ts e n ∧ Parse (Atom ic E.grp cs) e i (fun _ => none) j g ∧ ∀ x, b.sub x = subOf (mapG pre cs g x)) := by
  obtain ⟨h1, N, h2⟩ := hb
  obtain ⟨i, hi0, hi, e1⟩ := (hin.pos hk).1 h1
  obtain ⟨rfl, -, h3⟩ := compile_means (fun o ho => plain_atom (hp o ho)) hc
  rcases h3 with ⟨rfl, rfl, h3⟩ | ⟨e, hG, hM⟩
  · have h4 := (fut_fin h3 h2).1
    refine ⟨i, i, hi0, Nat.le_refl _, hi, e1, by rw [h4, e1], .inl ⟨rfl, rfl, rfl⟩⟩
  · obtain ⟨-, h4⟩ := hM.sound E N _ _ _ _ h2
    obtain ⟨g', h5, h6⟩ := h4 (fun _ => none) (fun _ _ => rfl)
    have hn : Nice P E cs e := G_all hG (fun o ho => ⟨hp o ho, fun e => hz (e ▸ ho), fun e => hw (e ▸ ho)⟩)
    obtain ⟨j, gc, h7, h8, h9, h10⟩ := parse_text hin h5 hn i (fun _ => none) hi e1 rfl
    refine ⟨i, j, hi0, matches_le (parse_matches h10), h7, e1, h8, .inr ⟨e, gc, hG, h10, fun x => ?_⟩⟩
    rw [← h9]
    exact h6 x (by simp)

end

/-! ### soundness (C68) -/

section
variable {cap n k : Nat} {ic full alloc : Bool} {ts : List (Tok Op)} {P : Prog} {E : Env} {cs : List Nat} {pre rest : List Byte} {o : Option Match} {ret : Int}

/-- A reported match is a match: the span is between characters of the text, from the position where the
search began on, and is matched by the pattern, giving the reported groups. The pattern is one of the
grammar, with `n` groups. Missing: `\B` (for which it fails, `not_word_boundary_consumes`), `\b` unless the
text begins and ends as it needs (it fails otherwise, `word_boundary_edges`), changes of `(?i)` inside the pattern, views that do not end at a terminator (`regex_view_partial`). -/
theorem regex_match_sound_partial (hp : ∀ o, Tok.one o ∈ ts → plainOp ic o = true) (hw : Tok.one Op.wbound ∈ ts → Edges E cs) (hne : ts ≠ []) (hc : compile cap ic ts = .ok (P, n))
    (hin : Input E cs pre rest) (heol : Soft E) (hk : k ≤ cs.length) (hx : exec P E full (off pre cs k) alloc = some (1, o)) :
    ∃ m e i j g, o = some m ∧ G 0 0 ts e n ∧ k ≤ i ∧ i ≤ j ∧ j ≤ cs.length ∧ m.start = off pre cs i ∧ m.stop = off pre cs j ∧
      Parse (Atom ic E.grp cs) e i (fun _ => none) j g ∧ ∀ x, m.sub x = subOf (mapG pre cs g x) := by
  rcases exec_split hx with ⟨h, -⟩ | ⟨c, h⟩
  · omega
  · obtain ⟨⟨b, rfl, hb⟩, -⟩ := (exec1_sound (compile_uniform hp hc) (.inl heol) h).2 rfl
    obtain ⟨i, j, h1, h2, h3, h4, h5, h6⟩ := good_text hp (fun _ => heol) hw hc hin hk hb
    rcases h6 with ⟨rfl, -⟩ | ⟨e, g, h6, h7, h8⟩
    · exact absurd rfl hne
    · exact ⟨b, e, i, j, g, rfl, h6, h1, h2, h3, h4, h5, h7, h8⟩

/-- The only results are a match, no match and an error. -/
theorem regex_match_results (hp : ∀ o, Tok.one o ∈ ts → plainOp ic o = true) (hc : compile cap ic ts = .ok (P, n)) (hpl : Soft E ∨ startType P = .none)
    (hx : exec P E full k alloc = some (ret, o)) : ret = 1 ∨ ret = 0 ∨ ret = -1 := by
  rcases exec_split hx with ⟨h, -⟩ | ⟨c, h⟩
  · exact .inr (.inr h)
  · exact (exec1_sound (compile_uniform hp hc) hpl h).1

/-- With CREG_FULLMATCH there is a match of whole lines. Missing: that the reported match is one, and that
one is reported if there is any; both fail, `fullmatch_reports_other`, `fullmatch_misses`. -/
theorem regex_fullmatch_partial (hp : ∀ o, Tok.one o ∈ ts → plainOp ic o = true) (hw : Tok.one Op.wbound ∈ ts → Edges E cs) (hne : ts ≠ []) (hc : compile cap ic ts = .ok (P, n))
    (hin : Input E cs pre rest) (heol : Soft E) (hk : k ≤ cs.length) (hx : exec P E true (off pre cs k) alloc = some (1, o)) :
    ∃ e i j, G 0 0 ts e n ∧ k ≤ i ∧ j ≤ cs.length ∧ Matches (Atom ic E.grp cs) e i j ∧
      (i = 0 ∨ cs[i - 1]? = some 10) ∧ (j = cs.length ∨ cs[j]? = some 10) := by
  rcases exec_split hx with ⟨h, -⟩ | ⟨c, h⟩
  · omega
  · obtain ⟨b, hb, hs, ht⟩ := ((exec1_sound (compile_uniform hp hc) (.inl heol) h).2 rfl).2 rfl
    obtain ⟨i, j, h1, h2, h3, h4, h5, h6⟩ := good_text hp (fun _ => heol) hw hc hin hk hb
    rcases h6 with ⟨rfl, -⟩ | ⟨e, g, h6, h7, h8⟩
    · exact absurd rfl hne
    · refine ⟨e, i, j, h6, h1, h3, parse_matches h7, ?_, ?_⟩
      · rcases ht with h | ⟨c, h, hc⟩
        · left
          rw [h4, hin.bol, ← off_zero pre cs] at h
          exact off_inj (by omega) (by omega) h
        · by_cases h0 : i = 0
          · exact .inl h0
          · right
            obtain ⟨i', rfl⟩ := Nat.exists_eq_succ_of_ne_zero h0
            have hci : cs[i']? = some cs[i'] := List.getElem?_eq_getElem (by omega)
            obtain ⟨b', q1, q2⟩ := hin.before hci
            rw [h4, q1] at h
            cases h
            simp only [Nat.succ_eq_add_one, Nat.add_sub_cancel, hci, q2.1 hc]
      · by_cases hj : j = cs.length
        · exact .inl hj
        · right
          have hcj : cs[j]? = some cs[j] := List.getElem?_eq_getElem (by omega)
          rcases hs with h | ⟨r, n, h, hr⟩
          · rw [h5] at h; exact absurd h (hin.not_eol (by omega))
          · rw [h5, hin.rune hcj] at h
            cases h
            rcases hr with hr | hr
            · exact absurd hr (hin.nz hcj)
            · rw [hcj, hr]

/-- The empty pattern matches the empty text at the position where the search begins. -/
theorem regex_empty_pattern (hc : compile cap ic [] = .ok (P, n))
    (hin : Input E cs pre rest) (heol : Soft E) (hk : k ≤ cs.length) (hx : exec P E full (off pre cs k) alloc = some (1, o)) :
    ∃ m i, o = some m ∧ k ≤ i ∧ i ≤ cs.length ∧ m.start = off pre cs i ∧ m.stop = m.start := by
  rcases exec_split hx with ⟨h, -⟩ | ⟨c, h⟩
  · omega
  · obtain ⟨⟨b, rfl, hb⟩, -⟩ := (exec1_sound (compile_uniform (by simp) hc) (.inl heol) h).2 rfl
    obtain ⟨i, j, h1, h2, h3, h4, h5, h6⟩ := good_text (by simp) (fun _ => heol) (by simp) hc hin hk hb
    rcases h6 with ⟨-, -, rfl⟩ | ⟨e, g, h6, h7, h8⟩
    · exact ⟨b, i, rfl, h1, h3, h4, by rw [h4, h5]⟩
    · exact absurd rfl (G_ne_nil h6)

/-! ### completeness (C69) -/

theorem complete_core (hp : ∀ o, Tok.one o ∈ ts → plainOp ic o = true) (hz : Tok.one Op.eoz ∈ ts → Soft E) (hw : Tok.one Op.wbound ∈ ts → Edges E cs) (hc : compile cap ic ts = .ok (P, n))
    (hin : Input E cs pre rest) (hk : k ≤ cs.length) (hfast : Fast P E (off pre cs k))
    (hx : exec P E false (off pre cs k) alloc = some (ret, o)) (hret : ret ≠ -1) :
    ∀ e n' i j, G 0 0 ts e n' → k ≤ i → i ≤ cs.length → Matches (Atom ic E.grp cs) e i j →
      ret = 1 ∧ ∃ m i' j', o = some m ∧ m.start = off pre cs i' ∧ m.stop = off pre cs j' ∧ i' ≤ i ∧ j' ≤ cs.length ∧ (i' = i → j ≤ j') := by
  intro e n' i j hG hki hi hm
  rcases exec_split hx with ⟨h, -⟩ | ⟨c, h⟩
  · omega
  · have hU := compile_uniform hp hc
    obtain ⟨hic, hops, h3⟩ := compile_means (fun o ho => plain_atom (hp o ho)) hc
    obtain ⟨hbest, hiff⟩ := exec1_complete hU hfast h hret
    have hnice : Nice P E cs e := G_all hG (fun o ho => ⟨hic ▸ hp o ho, fun e => hz (e ▸ ho), fun e => hw (e ▸ ho)⟩)
    obtain ⟨hj, hm'⟩ := matches_text (P := P) hin (hic ▸ hm) hnice hi
    rcases h3 with ⟨rfl, -⟩ | ⟨e', hG', hM⟩
    · exact absurd rfl (G_ne_nil hG)
    · obtain ⟨rfl, rfl⟩ := G_unique hG hG'
      obtain ⟨r0, n0, hr0⟩ := hin.rune_def hj
      obtain ⟨N, hN⟩ := hM.complete E _ _ r0 n0 hm' hr0
      obtain ⟨m, rfl, hrec⟩ := hbest _ _ _ ((hin.pos hk).2 ⟨i, hki, hi, rfl⟩) hN
      have hret1 : ret = 1 := hiff.2 rfl
      refine ⟨hret1, ?_⟩
      obtain ⟨⟨b, hb, hgood⟩, -⟩ := (exec1_sound hU hfast.plain h).2 hret1
      cases hb
      obtain ⟨i', j', h1, h2, h3, h4, h5, -⟩ := good_text hp hz hw hc hin hk hgood
      refine ⟨m, i', j', rfl, h4, h5, ?_, h3, ?_⟩
      · rw [← off_le_iff (pre := pre) (cs := cs) (by omega) hi]
        rcases hrec with h | ⟨h, -⟩ <;> omega
      · rintro rfl
        rw [← off_le_iff (pre := pre) (cs := cs) hj h3]
        rcases hrec with h | ⟨-, h⟩ <;> omega

/-- If there is a match then the leftmost one is reported, and of those the longest one. Missing from the
full claim: that there are enough threads (`ret ≠ -1`, and the run stays inside the lists), patterns with
`^` on texts with newlines or from a later position, and ignoring case on texts with characters above 127
that fold to ASCII. All of these fail: `match_error_although_matching`, `thread_list_overflow`,
`caret_misses_line`, `icase_misses_kelvin`. -/
theorem regex_leftmost_longest_partial (hp : ∀ o, Tok.one o ∈ ts → plainOp ic o = true) (hw : Tok.one Op.wbound ∈ ts → Edges E cs) (hc : compile cap ic ts = .ok (P, n))
    (hin : Input E cs pre rest) (heol : Soft E) (hk : k ≤ cs.length)
    (hbol : Tok.one Op.bol ∈ ts → k = 0 ∧ 10 ∉ cs) (hfold : ic = true → ∀ c ∈ cs, 128 ≤ c → 128 ≤ casefold c)
    (hx : exec P E false (off pre cs k) alloc = some (ret, o)) (hret : ret ≠ -1) :
    ∀ e n' i j, G 0 0 ts e n' → k ≤ i → i ≤ cs.length → Matches (Atom ic E.grp cs) e i j →
      ret = 1 ∧ ∃ m i' j', o = some m ∧ m.start = off pre cs i' ∧ m.stop = off pre cs j' ∧ i' ≤ i ∧ j' ≤ cs.length ∧ (i' = i → j ≤ j') := by
  refine complete_core hp (fun _ => heol) hw hc hin hk ?_ hx hret
  obtain ⟨hic, hops, -⟩ := compile_means (fun o ho => plain_atom (hp o ho)) hc
  have hbol' : startType P = .bol → Tok.one Op.bol ∈ ts := by
    intro hst
    have hI : ∃ I ∈ P.insts, I.op = .bol := by
      unfold startType at hst
      split at hst
      · split at hst <;> cases hst
      · split at hst <;> cases hst
      · rename_i h; exact ⟨_, List.mem_of_getElem? h, rfl⟩
      · cases hst
    obtain ⟨I, hI, hop⟩ := hI
    exact hops (fun o => o = .bol → Tok.one Op.bol ∈ ts) (by simp) (by simp) (by simp) (by simp) (by simp) (fun o ho e => e ▸ ho) I hI hop
  have hichr : ∀ x, startType P = .ichr x → ic = true ∧ x < 128 := by
    intro x hst
    unfold startType at hst
    split at hst
    · split at hst <;> cases hst
    · split at hst
      · rename_i h; cases hst; exact ⟨hic ▸ h.1, h.2⟩
      · cases hst
    · cases hst
    · cases hst
  have hch : ∀ b r n, Pos E (off pre cs k) b → rune E.m b = some (r, n) → r = 0 ∨ r ∈ cs := by
    intro b r n hb hr
    obtain ⟨i, hi0, hi, rfl⟩ := (hin.pos hk).1 hb
    by_cases he : i = cs.length
    · subst he
      rcases hin.at_end hr with h | ⟨-, h⟩
      · obtain ⟨-, -, -, x, f4, f5, -⟩ := rune_facts hr
        rw [heol _ h.symm] at f4
        cases f4
        exact .inl (f5.2 rfl)
      · exact .inl h
    · have hci : cs[i]? = some cs[i] := List.getElem?_eq_getElem (by omega)
      rw [hin.rune hci] at hr
      cases hr
      exact .inr (List.getElem_mem _)
  refine ⟨.inl heol, ?_, ?_⟩
  · intro hst
    obtain ⟨h1, h2⟩ := hbol (hbol' hst)
    refine ⟨by rw [h1, off_zero, hin.bol], fun b r n hb hr he => ?_⟩
    rcases hch b r n hb hr with h | h
    · omega
    · exact h2 (he ▸ h)
  · intro x hst b r n hb hr hge he
    obtain ⟨h1, h2⟩ := hichr x hst
    rcases hch b r n hb hr with h | h
    · omega
    · have := hfold h1 r h hge; omega

/-- Under the same conditions: no match is reported only if there is none. -/
theorem regex_nomatch_partial (hp : ∀ o, Tok.one o ∈ ts → plainOp ic o = true) (hw : Tok.one Op.wbound ∈ ts → Edges E cs) (hc : compile cap ic ts = .ok (P, n))
    (hin : Input E cs pre rest) (heol : Soft E) (hk : k ≤ cs.length)
    (hbol : Tok.one Op.bol ∈ ts → k = 0 ∧ 10 ∉ cs) (hfold : ic = true → ∀ c ∈ cs, 128 ≤ c → 128 ≤ casefold c)
    (hx : exec P E false (off pre cs k) alloc = some (0, o)) :
    ∀ e n' i j, G 0 0 ts e n' → k ≤ i → i ≤ cs.length → ¬ Matches (Atom ic E.grp cs) e i j := by
  intro e n' i j hG hki hi hm
  have := (regex_leftmost_longest_partial hp hw hc hin heol hk hbol hfold hx (by omega) e n' i j hG hki hi hm).1
  omega

/-! ### views (C71) -/

/-- The pattern begins with something else than a literal ASCII character or `^`; a group is fine. -/
def HeadOk (e : Re Op) : Prop := e.head ≠ some .bol ∧ ∀ c, c < 128 → e.head ≠ some (.rune c) ∧ e.head ≠ some (.irune c)

theorem head_start {e : Re Op} (hc : compile cap ic ts = .ok (P, n)) (hg : G 0 0 ts e n) (hh : HeadOk e) : startType P = .none := by
  have h := compile_start hc hg
  unfold startType
  unfold opAt at h
  cases hi : P.insts[P.start]? with
  | none => rfl
  | some I =>
    rw [hi] at h
    simp only [Option.map_some, Option.some.injEq] at h
    obtain ⟨h1, h2⟩ := hh
    have hno : ∀ o, I.op = o → e.head ≠ some o → (∀ k, o ≠ .lbra k) → (∀ k, o ≠ .or k) → False := by
      intro o ho hne hl hr
      rw [ho] at h
      rcases h with h | ⟨k, h⟩ | ⟨k, h⟩
      · exact hne h.symm
      · exact hl k h
      · exact hr k h
    obtain ⟨op, nx⟩ := I
    cases op with
    | rune c =>
      simp only
      split
      · rename_i hlt; exact (hno _ rfl (h2 c hlt.2).1 (by simp) (by simp)).elim
      · rfl
    | irune c =>
      simp only
      split
      · rename_i hlt; exact (hno _ rfl (h2 c hlt.2).2 (by simp) (by simp)).elim
      · rfl
    | bol => exact (hno _ rfl h1 (by simp) (by simp)).elim
    | _ => rfl

/-- A match in a view is a match of the text of the view, and inside it. Missing from the full claim: the
patterns beginning with a literal ASCII character or with `^`, outside of a group, for which it fails (`view_match_outside`),
and those with `\Z` unless there is a terminator. -/
theorem regex_view_partial (hp : ∀ o, Tok.one o ∈ ts → plainOp ic o = true) (hz : Tok.one Op.eoz ∈ ts → Soft E) (hw : Tok.one Op.wbound ∈ ts → Edges E cs) (hc : compile cap ic ts = .ok (P, n)) {e : Re Op} (hg : G 0 0 ts e n) (hh : HeadOk e)
    (hin : Input E cs pre rest) (hk : k ≤ cs.length) (hx : exec P E full (off pre cs k) alloc = some (1, o)) :
    ∃ m i j g, o = some m ∧ pre.length ≤ m.start ∧ m.start ≤ m.stop ∧ m.stop ≤ pre.length + (text cs).length ∧
      k ≤ i ∧ i ≤ j ∧ j ≤ cs.length ∧ m.start = off pre cs i ∧ m.stop = off pre cs j ∧
      Parse (Atom ic E.grp cs) e i (fun _ => none) j g ∧ ∀ x, m.sub x = subOf (mapG pre cs g x) := by
  rcases exec_split hx with ⟨h, -⟩ | ⟨c, h⟩
  · omega
  · obtain ⟨⟨b, rfl, hb⟩, -⟩ := (exec1_sound (compile_uniform hp hc) (.inr (head_start hc hg hh)) h).2 rfl
    obtain ⟨i, j, h1, h2, h3, h4, h5, h6⟩ := good_text hp hz hw hc hin hk hb
    rcases h6 with ⟨rfl, -⟩ | ⟨e', g, h6, h7, h8⟩
    · exact absurd rfl (G_ne_nil hg)
    · obtain ⟨rfl, -⟩ := G_unique hg h6
      refine ⟨b, i, j, g, rfl, ?_, ?_, ?_, h1, h2, h3, h4, h5, h7, h8⟩
      · rw [h4, ← off_zero pre cs]; exact off_le (by omega) (by omega)
      · rw [h4, h5]; exact off_le h2 h3
      · rw [h5, ← off_len]; exact off_le h3 (Nat.le_refl _)

/-- In a view, and also where `regex_leftmost_longest_partial` has its conditions: if the pattern does not
begin with a literal ASCII character or `^` then the leftmost longest match is reported. Missing: that
there are enough threads. -/
theorem regex_head_leftmost_longest_partial (hp : ∀ o, Tok.one o ∈ ts → plainOp ic o = true) (hz : Tok.one Op.eoz ∈ ts → Soft E) (hw : Tok.one Op.wbound ∈ ts → Edges E cs) (hc : compile cap ic ts = .ok (P, n))
    {e : Re Op} (hg : G 0 0 ts e n) (hh : HeadOk e) (hin : Input E cs pre rest) (hk : k ≤ cs.length)
    (hx : exec P E false (off pre cs k) alloc = some (ret, o)) (hret : ret ≠ -1) :
    ∀ i j, k ≤ i → i ≤ cs.length → Matches (Atom ic E.grp cs) e i j →
      ret = 1 ∧ ∃ m i' j', o = some m ∧ m.start = off pre cs i' ∧ m.stop = off pre cs j' ∧ i' ≤ i ∧ j' ≤ cs.length ∧ (i' = i → j ≤ j') := by
  intro i j
  have hst := head_start hc hg hh
  exact complete_core hp hz hw hc hin hk ⟨.inr hst, fun h => (by rw [hst] at h; cases h), fun c h => (by rw [hst] at h; cases h)⟩ hx hret e n i j hg

end

/-! ### cases, and what fails -/

section
/-- A text with its terminator. -/
def str (cs : List Nat) : Env := ⟨text cs ++ [0#8], 0, none, fun _ _ => false, fun _ => false⟩

/-- A view of the text `cs` before `more`. -/
def view (cs more : List Nat) : Env := ⟨text cs ++ text more ++ [0#8], 0, some (text cs).length, fun _ _ => false, fun _ => false⟩

/-- The result of matching: of compiling, of the matcher, and the span. -/
def result (ic full : Bool) (ts : List (Tok Op)) (E : Env) : Option (Option (Int × Option (Nat × Nat))) :=
  match compile 100 ic ts with
  | .ok (P, _) => some ((exec P E full 0 true).map fun x => (x.1, x.2.map fun b => (b.start, b.stop)))
  | _ => none

/-- Literals. -/
def lits (l : List Nat) : List (Tok Op) := l.map fun c => .one (.rune c)

theorem str_input {cs : List Nat} (h : Text cs) : Input (str cs) cs [] [0#8] :=
  ⟨h, rfl, rfl, .inl ⟨rfl, [], rfl⟩⟩

/-- `(a|b)*c` in "xabac", at "abac"; the last match of the group is the second `a`. -/
example : ∃ P, compile 100 false ([.lpar] ++ lits [97] ++ [.bar] ++ lits [98] ++ [.rpar, .star] ++ lits [99]) = .ok (P, 1) ∧
    (exec P (str [120, 97, 98, 97, 99]) false 0 true).map (fun x => (x.1, x.2.map fun b => (b.start, b.stop, b.sub 1))) =
      some (1, some (1, 5, ⟨some 3, 1⟩)) := by
  refine ⟨_, rfl, ?_⟩
  decide +kernel

example : Input (str [120, 97, 98, 97, 99]) [120, 97, 98, 97, 99] [] [0#8] := str_input (by decide)

/-- `a+` in "baac" is at "aa". -/
example : result false false (lits [97] ++ [.plus]) (str [98, 97, 97, 99]) = some (some (1, some (1, 3))) := by decide +kernel

/-- With CREG_FULLMATCH. -/
example : result false true (lits [97] ++ [.plus]) (str [97, 97]) = some (some (1, some (0, 2))) := by decide +kernel

/-- The empty pattern. -/
example : result false false [] (str [97]) = some (some (1, some (0, 0))) := by decide +kernel

/-- No match. -/
example : result false false (lits [97, 98]) (str [97, 97]) = some (some (0, none)) := by decide +kernel

/-- `[a-b]c` in the view "xac" of "xacc". -/
example : result false false ([.one (.cls false [(97, 98)])] ++ lits [99]) (view [120, 97, 99] [99]) = some (some (1, some (1, 3))) := by decide +kernel

/-- A pattern that begins with an ASCII literal, here `b`, is found behind the end of the view: "a" of
"aab". (The thread begins where `strchr` leads, cregex_prv.c 1037-1045.) -/
theorem view_match_outside : result false false (lits [98]) (view [97] [97, 98]) = some (some (1, some (2, 3))) := by decide +kernel

/-- `^c` is not found in "\nc", where it matches at 1. -/
theorem caret_misses_line : result false false (.one .bol :: lits [99]) (str [10, 99]) = some (some (0, none)) ∧
    G 0 0 (.one Op.bol :: lits [99]) (.cat (.one Op.bol) (.one (.rune 99))) 0 ∧
    Matches (Atom false (fun _ _ => false) [10, 99]) (.cat (.one .bol) (.one (.rune 99))) 1 2 := by
  refine ⟨by decide +kernel, .seq (.cat (ts := [.one Op.bol]) (.item .one) .one), .cat (j := 1) (.one ⟨rfl, .inr rfl⟩) (.one ⟨99, rfl, rfl, rfl⟩)⟩

/-- `k` without regard to case is not found in "K" (the Kelvin sign, U+212A), which folds to it; behind
another operand it is. -/
theorem icase_misses_kelvin : result true false [.one (.irune 107)] (str [0x212A]) = some (some (0, none)) ∧
    G 0 0 [.one (Op.irune 107)] (.one (Op.irune 107)) 0 ∧ Matches (Atom true (fun _ _ => false) [0x212A]) (.one (.irune 107)) 0 1 ∧
    result true false [.one .any, .one (.irune 107)] (str [97, 0x212A]) = some (some (1, some (0, 4))) := by
  refine ⟨by decide +kernel, .seq (.item .one), .one ⟨0x212A, rfl, ?_, rfl⟩, by decide +kernel⟩
  show casefold 0x212A = 107
  decide +kernel

/-- `(a*|b*)*` is not matched, because the same threads are added again and again; the result is
CREG_MATCHERROR, also with the large lists. -/
theorem match_error_although_matching :
    result false false ([.lpar] ++ lits [97] ++ [.star, .bar] ++ lits [98] ++ [.star, .rpar, .star]) (str [97, 98]) = some (some (-1, none)) := by
  decide +kernel

/-- `...d|.cd|.cee` on "abcx" writes behind the end of a list of threads: the list has 7 threads, the one
for the start is added without looking at the limit, and the two for the alternatives pass it. -/
theorem thread_list_overflow :
    result false false ([.one .any, .one .any, .one .any] ++ lits [100] ++ [.bar, .one .any] ++ lits [99, 100] ++ [.bar, .one .any] ++ lits [99, 101, 101])
      (str [97, 98, 99, 120]) = some none := by
  decide +kernel

/-- CREG_FULLMATCH: `aab|bc*` does match the whole of "aab", but a later thread resets the result. -/
theorem fullmatch_misses :
    result false true (lits [97, 97, 98] ++ [.bar] ++ lits [98, 99] ++ [.star]) (str [97, 97, 98]) = some (some (0, some (0, 3))) := by
  decide +kernel

/-- CREG_FULLMATCH: `b|aa` is accepted for "aab\nb", because of the last line, but what is reported is
not a line. -/
theorem fullmatch_reports_other :
    result false true (lits [98] ++ [.bar] ++ lits [97, 97]) (str [97, 97, 98, 10, 98]) = some (some (1, some (0, 2))) := by
  decide +kernel

/-- `\Bb` consumes a character at a word boundary: in "ab" it matches everything. -/
theorem not_word_boundary_consumes :
    result false false ([.one .nwbound] ++ lits [98]) (str [97, 98]) = some (some (1, some (0, 2))) := by
  decide +kernel

/-- Letters, as word characters. -/
def letter (r : Nat) : Bool := 97 ≤ r && r ≤ 122

/-- A text with its terminator, where the letters are word characters. -/
def strW (cs : List Nat) : Env := ⟨text cs ++ [0#8], 0, none, fun c r => c == Spec.wordCode && letter r, letter⟩

/-- `\bc\b` is found in "ab c.", whose edges are as needed. -/
example : result false false ([.one .wbound] ++ lits [99] ++ [.one .wbound]) (strW [97, 98, 32, 99, 46]) = some (some (1, some (3, 4))) ∧
    Edges (strW [97, 98, 32, 99, 46]) [97, 98, 32, 99, 46] :=
  ⟨by decide +kernel, ⟨fun r => by simp [strW], by decide, by decide⟩⟩

/-- `a\b` is not found in "a", where it matches: at a terminator the character before is not looked at
(`utf8_peek_at` does not go back from it). And `\b` followed by a space is found in " a", where there is no
boundary before the space: the beginning always counts as one. -/
theorem word_boundary_edges :
    result false false (lits [97] ++ [.one .wbound]) (strW [97]) = some (some (0, none)) ∧
    Matches (Atom false (strW [97]).grp [97]) (.cat (.one (.rune 97)) (.one .wbound)) 0 1 ∧
    result false false ([.one .wbound] ++ lits [32]) (strW [32, 97]) = some (some (1, some (0, 1))) ∧
    ¬ Matches (Atom false (strW [32, 97]).grp [32, 97]) (.cat (.one .wbound) (.one (.rune 32))) 0 1 := by
  refine ⟨by decide +kernel, .cat (j := 1) (.one ⟨97, rfl, rfl, rfl⟩) (.one ⟨rfl, by unfold Spec.Bound; decide⟩), by decide +kernel, ?_⟩
  intro h
  cases h with
  | cat h1 h2 =>
    cases h1 with
    | one h1 =>
      obtain ⟨-, h1⟩ := h1
      exact h1 (by decide)

end

end Verif.Regex
