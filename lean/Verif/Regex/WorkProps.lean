import Verif.Regex.Work
/-
C161 (no slow patterns: one search is linear in the text and in the pattern) and C162 (going through all
matches). The work is counted as in CostModel.lean.
-/
namespace Verif.Regex
open Verif.Utf8 (Byte casefold)
open Verif.Utf8.Spec (Scalar enc text Text)
open Spec (Tok Re G Sur Spells Matches Walk)

/-! ### the size of programs -/

theorem G_size {lv n n' : Nat} {ts : List (Tok Op)} {e : Re Op} (h : G lv n ts e n') : size e ≤ 2 * ts.length := by
  induction h with
  | one => simp [size]
  | grp _ ih => simp only [size, List.length_cons, List.length_append, List.length_nil]; omega
  | star _ ih => simp only [size, List.length_append, List.length_cons, List.length_nil]; omega
  | plus _ ih => simp only [size, List.length_append, List.length_cons, List.length_nil]; omega
  | opt _ ih => simp only [size, List.length_append, List.length_cons, List.length_nil]; omega
  | item _ ih => exact ih
  | cat _ _ ih1 ih2 => simp only [size, List.length_append]; omega
  | seq _ ih => exact ih
  | alt _ _ ih1 ih2 => simp only [size, List.length_append, List.length_cons]; omega

section
variable {n k bytes : Nat} {ic dot full : Bool} {s : List Nat} {l : List (Tok Sur)} {e : Re Sur} {P : Prog} {E : Env} {U : Test → Nat → Bool} {cs : List Nat} {pre rest : List Byte}

theorem program_size (hs : Spells ic s l) (hn : (l.filter isCls).length ≤ 16) (hc : regcomp ic dot bytes s = .ok (P, n)) (hg : G 0 0 l e n) (hsi : e.single = true) :
    P.insts.length ≤ 2 * s.length + 1 := by
  rw [regcomp_spells hs hn] at hc
  have hg' := G_map (opOf ic dot) hg
  obtain ⟨hp, e0, l0, hf, hopt, -, hcase⟩ := compile_frag hc
  obtain ⟨k', hO, -, -⟩ := optimize_inv ⟨rfl, fun _ => rfl, fun _ _ => rfl, fun i hi => by omega⟩ hopt
  rcases hcase with ⟨h0, -⟩ | ⟨A, e', hg2, hq, rfl⟩
  · rw [h0] at hg'
    exact absurd rfl (G_ne_nil hg')
  obtain ⟨rfl, -⟩ := G_unique hg' hg2
  obtain rfl := hq.same (.inr (by rw [map_single]; exact hsi))
  have h1 := frag_size hf
  have h2 := G_size hg'
  have h3 := spells_length hs
  rw [List.length_map] at h2
  rw [hO.len]
  simp only [size] at h1
  omega

/-- The work of one search, for a pattern of `len` characters, when `bytes` of the text are left. -/
def budget (len bytes : Nat) : Nat := 228 * (len + 1) * (bytes + 1)

/-- What counts for `exec`: both runs. -/
theorem execC_bounds {alloc : Bool} (hin : Input E cs pre rest) (hpl : Plain P E) (hk : k ≤ cs.length) (hlen : P.insts.length ≤ 2 * s.length + 1) {x : Int × Option Match} {c : Nat}
    (h : execC P E full (off pre cs k) alloc = some (x, c)) : c ≤ budget s.length (text (cs.drop k)).length ∧ (x.1 ≠ -1 → cs.length - k ≤ c) := by
  have hoff : off pre cs cs.length + 1 - off pre cs k = (text (cs.drop k)).length + 1 := by
    have h1 : text cs = text (cs.take k) ++ text (cs.drop k) := by rw [← text_app, List.take_append_drop]
    rw [off_len, h1]
    simp only [off, List.length_append]
    omega
  unfold execC at h
  obtain ⟨⟨y, c1⟩, h1, h⟩ := Option.bind_eq_some_iff.1 h
  obtain ⟨u1, l1⟩ := mainLoopC_bounds hin hpl _ _ _ _ _ _ _ _ _ hk h1
  rw [hoff] at u1
  generalize (text (cs.drop k)).length = L at *
  have b1 : ((10 + 1) * (P.insts.length + 1) + 2) ≤ 24 * (s.length + 1) := by omega
  have b2 : ((100 + 1) * (P.insts.length + 1) + 2) ≤ 204 * (s.length + 1) := by omega
  have c1le : c1 ≤ 24 * (s.length + 1) * (L + 1) := u1.trans (Nat.mul_le_mul_right _ b1)
  have hsum : 24 * (s.length + 1) * (L + 1) + 204 * (s.length + 1) * (L + 1) = budget s.length L := by unfold budget; ring
  split at h
  · simp only [Option.some.injEq, Prod.mk.injEq] at h
    obtain ⟨rfl, rfl⟩ := h
    exact ⟨by omega, l1⟩
  · split at h
    · obtain ⟨c2, h2, rfl⟩ := tick_some h
      obtain ⟨u2, l2⟩ := mainLoopC_bounds hin hpl _ _ _ _ _ _ _ _ _ hk h2
      rw [hoff] at u2
      have c2le : c2 ≤ 204 * (s.length + 1) * (L + 1) := u2.trans (Nat.mul_le_mul_right _ b2)
      exact ⟨by omega, fun hne => by have := l2 hne; omega⟩
    · simp only [Option.some.injEq, Prod.mk.injEq] at h
      obtain ⟨rfl, rfl⟩ := h
      exact ⟨by omega, fun hne => absurd rfl hne⟩

/-- C161. There are no slow patterns: for every pattern that fits into the lists of threads, every text and
every position, a search ends with an answer after work at most proportional to the length of the
pattern times the number of bytes left. Missing from the full claim: the patterns that do not fit (they
repeat something that may be empty, or need more than 96 threads); views behind whose end there is no
terminator, when the pattern begins with an ASCII character or `^`. -/
theorem search_linear_partial (hs : Spells ic s l) (hn : (l.filter isCls).length ≤ 16) (hc : regcomp ic dot bytes s = .ok (P, n)) (hg : G 0 0 l e n) (hf : e.fits Sur.eats = true)
    (hin : Input E cs pre rest) (hend : Soft E ∨ FreeHead ic e) (hk : k ≤ cs.length) :
    ∃ x c, execC P E full (off pre cs k) true = some (x, c) ∧ exec P E full (off pre cs k) true = some x ∧ (x.1 = 0 ∨ x.1 = 1) ∧
      c ≤ 228 * (s.length + 1) * ((text (cs.drop k)).length + 1) := by
  obtain ⟨ret, o, hx, hr⟩ := pattern_answers (full := full) hs hn hc hg hf hin hend hk
  have hsi : e.single = true := by
    simp only [Re.fits, Bool.and_eq_true] at hf
    exact hf.1.1.1
  have hpl : Plain P E := by
    rw [regcomp_spells hs hn] at hc
    rcases hend with h | h
    · exact .inl h
    · exact .inr (head_start hc (G_map (opOf ic dot) hg) (free_head h (ones_head (G_ones hg (spells_fine hs)))))
  have hx' := hx
  rw [← execC_fst] at hx'
  obtain ⟨⟨y, c⟩, h1, h2⟩ := Option.map_eq_some_iff.1 hx'
  simp only at h2
  subst h2
  exact ⟨_, c, h1, hx, hr, (execC_bounds hin hpl hk (program_size hs hn hc hg hsi) h1).1⟩

/-- A search always looks at the whole rest of the text, also if the match is at its beginning. -/
theorem search_reads_all (hs : Spells ic s l) (hn : (l.filter isCls).length ≤ 16) (hc : regcomp ic dot bytes s = .ok (P, n)) (hg : G 0 0 l e n) (hsi : e.single = true)
    (hin : Input E cs pre rest) (hend : Soft E ∨ FreeHead ic e) (hk : k ≤ cs.length) {alloc : Bool} {x : Int × Option Match} {c : Nat} (h : execC P E full (off pre cs k) alloc = some (x, c))
    (hx : x.1 ≠ -1) : cs.length - k ≤ c := by
  have hpl : Plain P E := by
    rw [regcomp_spells hs hn] at hc
    rcases hend with h | h
    · exact .inl h
    · exact .inr (head_start hc (G_map (opOf ic dot) hg) (free_head h (ones_head (G_ones hg (spells_fine hs)))))
  exact (execC_bounds hin hpl hk (program_size hs hn hc hg hsi) h).2 hx

/-- C162, what holds. Going through all matches takes at most one search for every match and one more, so
the work is at most proportional to the length of the pattern and the square of the number of bytes.
Missing from the full claim: that it is linear in the text, which `matches_not_linear` refutes. -/
theorem matches_work_partial (hs : Spells ic s l) (hn : (l.filter isCls).length ≤ 16) (hw : Tok.one Sur.wb ∈ l → Edges E cs) (hc : regcomp ic dot bytes s = .ok (P, n)) (hU : E.grp = grpOf U) (hg : G 0 0 l e n)
    (hf : e.fits Sur.eats = true) (hin : Input E cs pre rest) (heol : E.eol = none) (hcov : ∀ k ≤ cs.length, Covered ic l e True cs k) :
    ∀ (f k : Nat), k ≤ cs.length → cs.length - k < f → ∃ ms w c, iterC P E true f (off pre cs k) = some ((ms, true), c) ∧ Walk (Sur.has ic dot U) e cs k w ∧ ms.length = w.length ∧ ms.length ≤ cs.length - k ∧
      c ≤ (ms.length + 1) * (228 * (s.length + 1) * ((text (cs.drop k)).length + 1)) ∧
      (cs.length - k) + (w.map fun y => cs.length - y.2.1).sum ≤ c := by
  have hE : { E with eol := none } = E := by cases E; simp only [Env.mk.injEq, true_and]; exact ⟨heol.symm, trivial⟩
  have hsoft : Soft E := Soft.of_none heol
  have hsi : e.single = true := by
    simp only [Re.fits, Bool.and_eq_true] at hf
    exact hf.1.1.1
  intro f
  induction f with
  | zero => intro k _ h; omega
  | succ f ih =>
    intro k hk hfu
    obtain ⟨x, c, h1, h2, h3, h4⟩ := search_linear_partial (full := false) hs hn hc hg hf hin (.inl hsoft) hk
    have hlow := search_reads_all hs hn hc hg hsi hin (.inl hsoft) hk h1 (by omega)
    generalize hB : 228 * (s.length + 1) = B at *
    rw [iterC, hE, h1, Option.bind_some]
    obtain ⟨ret, o⟩ := x
    rcases round hs hn hw hc hU hg hin ((hcov k hk).mono (fun _ => hsoft)) hk h2 (by simp only at h3; omega) with ⟨rfl, x, i, j, g, rfl, hb, q1, q2, -⟩ | ⟨rfl, hno⟩
    · simp only
      have hij := hb.2.1
      have hj := hb.2.2.1
      have hki := hb.1
      by_cases he : i = j
      · subst he
        rw [if_pos (by rw [q1, q2])]
        refine ⟨[], [], c, rfl, .empty hb, rfl, by simp, ?_, by simpa using hlow⟩
        simpa using h4
      · rw [if_neg (fun h => he (off_inj (pre := pre) (cs := cs) (by omega) (by omega) (by rw [← q1, ← q2, h])))]
        obtain ⟨ms, w, c', e1, e2, e3, e4, e5, e6⟩ := ih j hj (by omega)
        rw [q2, e1]
        refine ⟨x :: ms, (i, j, g) :: w, c' + c, rfl, .step hb (by omega) e2, by simp [e3], by simp only [List.length_cons]; omega, ?_, by simp only [List.map_cons, List.sum_cons]; omega⟩
        have hle : (text (cs.drop j)).length ≤ (text (cs.drop k)).length := by
          have h5 : cs.drop k = (cs.drop k).take (j - k) ++ cs.drop j := by
            rw [show cs.drop j = (cs.drop k).drop (j - k) by rw [List.drop_drop]; congr 1; omega, List.take_append_drop]
          rw [h5, text_app, List.length_append]
          omega
        have h5 : c' ≤ (ms.length + 1) * (B * ((text (cs.drop k)).length + 1)) := e5.trans (Nat.mul_le_mul_left _ (Nat.mul_le_mul_left _ (by omega)))
        calc c' + c ≤ (ms.length + 1) * (B * ((text (cs.drop k)).length + 1)) + B * ((text (cs.drop k)).length + 1) := Nat.add_le_add h5 h4
          _ = ((x :: ms).length + 1) * (B * ((text (cs.drop k)).length + 1)) := by simp only [List.length_cons]; ring
    · refine ⟨[], [], c, rfl, .none hno, rfl, by simp, ?_, by simpa using hlow⟩
      simpa using h4
end

/-! ### going through the matches is not linear -/

theorem walk_letters {n : Nat} : ∀ {k : Nat} {w : List (Nat × Nat × Spec.Groups)}, k ≤ n → Walk (Sur.has false false U0) (.one (.chr 97)) (List.replicate n 97) k w →
    w.length = n - k ∧ 2 * ((n - k) + (w.map fun y => n - y.2.1).sum) = (n - k) * (n - k + 1) := by
  have hm : ∀ {i j : Nat}, Matches (Sur.has false false U0 (List.replicate n 97)) (.one (.chr 97)) i j ↔ i < n ∧ j = i + 1 := by
    intro i j
    constructor
    · rintro ⟨h⟩
      obtain ⟨h1, h2⟩ := (has_chr 97 i j).1 h
      obtain ⟨h3, -⟩ := List.getElem?_eq_some_iff.1 h1
      exact ⟨by simpa using h3, h2⟩
    · rintro ⟨h1, rfl⟩
      exact .one ((has_chr 97 i (i + 1)).2 ⟨by rw [List.getElem?_replicate, if_pos h1], rfl⟩)
  intro k w hk h
  induction h with
  | @none k hno =>
    have : k = n := by
      by_contra hne
      exact hno k (k + 1) (Nat.le_refl _) (by simpa using hk) (hm.2 ⟨by omega, rfl⟩)
    subst this
    simp
  | @empty k i g hb => have := (hm.1 (parse_matches hb.2.2.2.1)).2; omega
  | @step k i j g w hb hlt hw ih =>
    obtain ⟨h1, h2⟩ := hm.1 (parse_matches hb.2.2.2.1)
    have hki := hb.1
    have hi : i = k := by
      have := (hb.2.2.2.2 k (k + 1) (Nat.le_refl _) (by simpa using hk) (hm.2 ⟨by omega, rfl⟩)).1
      omega
    subst hi
    subst h2
    obtain ⟨a1, a2⟩ := ih (by omega)
    obtain ⟨d, rfl⟩ : ∃ d, n = i + 1 + d := ⟨n - (i + 1), by omega⟩
    have e1 : i + 1 + d - (i + 1) = d := by omega
    have e2 : i + 1 + d - i = d + 1 := by omega
    simp only [List.map_cons, List.sum_cons, List.length_cons, e1, e2] at a1 a2 ⊢
    refine ⟨by omega, ?_⟩
    have : (d + 1) * (d + 1 + 1) = d * (d + 1) + 2 * (d + 1) := by ring
    omega

/-- C162 fails: there is no constant such that going through the matches of the pattern `a` takes at most
that much work for every character of the text. In `aa..a` every search runs to the end of the text. -/
theorem matches_not_linear : ∃ P, regcomp false false 1 [97] = .ok (P, 0) ∧ ∀ B : Nat, ∃ n ms c, iterC P (strU (List.replicate n 97)) true (n + 1) 0 = some ((ms, true), c) ∧ ms.length = n ∧ B * (n + 1) < c := by
  obtain ⟨P, hP⟩ : ∃ P, regcomp false false 1 [97] = .ok (P, 0) := ⟨⟨[⟨.rune 97, some 1⟩, ⟨.fin, none⟩], 0, false⟩, by rfl⟩
  refine ⟨P, hP, fun B => ⟨2 * B + 1, ?_⟩⟩
  generalize hN : 2 * B + 1 = N
  have ht : Text (List.replicate N 97) := by
    intro c hc
    obtain rfl := (List.mem_replicate.1 hc).2
    exact ⟨by decide, by decide⟩
  have hs : Spells false [97] [.one (.chr 97)] := spells_chr (w := [97]) (by decide)
  obtain ⟨ms, w, c, h1, h2, h3, -, -, h6⟩ := matches_work_partial (E := strU (List.replicate N 97)) (U := U0) (pre := []) hs (by decide) (fun h => by simp at h) hP rfl (word_G (con := Sur.chr) 97 [])
    (by decide +kernel) (strU_input ht) rfl (fun k _ => .inl ⟨trivial, fun h => by simp at h, fun h => by cases h⟩) (N + 1) 0 (Nat.zero_le _) (by simp)
  obtain ⟨h7, h8⟩ := walk_letters (Nat.zero_le N) h2
  refine ⟨ms, c, by simpa [off, text] using h1, by omega, ?_⟩
  simp only [List.length_replicate, Nat.sub_zero] at h6 h8
  subst hN
  have : (2 * B + 1) * (2 * B + 1 + 1) = 2 * (B * (2 * B + 1 + 1)) + (2 * B + 1 + 1) := by ring
  omega

/-! ### cases -/

/-- A pattern that is slow for backtracking matchers, `(x+x+)+y`. -/
def slow : List Nat := [40, 120, 43, 120, 43, 41, 43, 121]
def slowRe : Re Sur := .cat (.plus (.grp 1 (.cat (.plus (.one (.chr 120))) (.plus (.one (.chr 120)))))) (.one (.chr 121))
def slowToks : List (Tok Sur) := [.lpar, .one (.chr 120), .plus, .one (.chr 120), .plus, .rpar, .plus, .one (.chr 121)]

theorem slow_spells : Spells false slow slowToks :=
  .tok (t := .lpar) (fun a h => by cases h) (fun _ => by decide) (.tok (t := .one (.chr 120)) (fun a h => by cases h; exact ⟨by decide, by decide⟩) (fun h => by cases h)
    (.tok (t := .plus) (fun a h => by cases h) (fun h => by cases h) (.tok (t := .one (.chr 120)) (fun a h => by cases h; exact ⟨by decide, by decide⟩) (fun h => by cases h)
    (.tok (t := .plus) (fun a h => by cases h) (fun h => by cases h) (.tok (t := .rpar) (fun a h => by cases h) (fun h => by cases h)
    (.tok (t := .plus) (fun a h => by cases h) (fun h => by cases h) (.tok (t := .one (.chr 121)) (fun a h => by cases h; exact ⟨by decide, by decide⟩) (fun h => by cases h) .nil)))))))

theorem slow_grammar : G 0 0 slowToks slowRe 1 :=
  .seq (.cat (.item (.plus (.grp (.seq (.cat (.item (.plus .one)) (.plus .one)))))) .one)

/-- On a text of `n` letters `x`, searching for it is linear. -/
example (n : Nat) : ∃ P x c, regcomp false false 8 slow = .ok (P, 1) ∧ execC P (strU (List.replicate n 120)) false 0 true = some (x, c) ∧ (x.1 = 0 ∨ x.1 = 1) ∧ c ≤ 2052 * (n + 1) := by
  obtain ⟨P, hP⟩ : ∃ P, regcomp false false 8 slow = .ok (P, 1) := ⟨_, by rfl⟩
  have ht : Text (List.replicate n 120) := by
    intro c hc
    obtain rfl := (List.mem_replicate.1 hc).2
    exact ⟨by decide, by decide⟩
  obtain ⟨x, c, h1, -, h3, h4⟩ := search_linear_partial (full := false) (k := 0) slow_spells (by decide) hP slow_grammar (by decide +kernel) (strU_input ht) (.inl (Soft.of_none rfl)) (Nat.zero_le _)
  have hl : ∀ n : Nat, (text (List.replicate n 120)).length = n := by
    intro n
    induction n with
    | zero => rfl
    | succ n ih => rw [List.replicate_succ, show text (120 :: List.replicate n 120) = enc 120 ++ text (List.replicate n 120) from rfl, List.length_append, ih]; simp [enc]; omega
  rw [List.drop_zero, hl] at h4
  exact ⟨P, x, c, hP, by simpa [off, text] using h1, h3, h4⟩

/-- The work for the pattern `b` in `aab` and `(x+x+)+y` in `xxxx`. -/
def work (s : List Nat) (E : Env) : Option Nat :=
  match regcomp false false s.length s with
  | .ok (P, _) => (execC P E false 0 true).map (·.2)
  | _ => none

example : work [98] (strU [97, 97, 98]) = some 8 ∧ work slow (strU [120, 120, 120, 120]) = some 42 ∧ work slow (strU (List.replicate 20 120)) = some 218 := by decide +kernel

end Verif.Regex
