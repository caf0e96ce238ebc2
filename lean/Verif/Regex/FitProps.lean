import Verif.Regex.Fit
import Verif.Regex.ReplaceProps
/-
The matcher answers for patterns that fit into its lists of threads (FitsSpec.lean), and what follows from
that: searching, replacing and going through the matches without further conditions on the calls.
-/
namespace Verif.Regex.Spec

/-- Operands that stand for a character. -/
def Sur.eats : Sur → Bool
  | .bol | .eol | .bos | .eos | .eoz | .wb | .mode _ => false
  | _ => true

end Verif.Regex.Spec

namespace Verif.Regex
open Verif.Utf8 (Byte casefold)
open Verif.Utf8.Spec (Scalar enc text Text)
open Verif.Cstr (Str)
open Spec (Tok Re G Parse Groups Matches Sur Spells Piece Reads value NoMatch Replaced Walk plainOp)

section
variable {α β : Type} (f : α → β) (p : β → Bool)

theorem map_null : ∀ e : Re α, (e.map f).null p = e.null (p ∘ f)
  | .one _ => rfl
  | .grp _ e => map_null e
  | .cat a b => by simp only [Re.map, Re.null, map_null a, map_null b]
  | .alt a b => by simp only [Re.map, Re.null, map_null a, map_null b]
  | .star _ => rfl
  | .plus e => map_null e
  | .opt _ => rfl

theorem map_forks : ∀ (e : Re α) (c : Nat), (e.map f).forks p c = e.forks (p ∘ f) c
  | .one _, _ => rfl
  | .grp _ e, c => map_forks e c
  | .cat a b, c => by simp only [Re.map, Re.forks, map_forks a, map_forks b]
  | .alt a b, c => by simp only [Re.map, Re.forks, map_forks a, map_forks b]
  | .star e, c => by simp only [Re.map, Re.forks, map_forks e]
  | .plus e, c => by simp only [Re.map, Re.forks, map_forks e]
  | .opt e, c => by simp only [Re.map, Re.forks, map_forks e]

theorem map_open : ∀ e : Re α, (e.map f).open p = e.open (p ∘ f)
  | .one _ => rfl
  | .grp _ e => rfl
  | .cat a b => map_open b
  | .alt a b => by simp only [Re.map, Re.open, map_open a, map_open b]
  | .star _ => rfl
  | .plus _ => rfl
  | .opt e => map_open e

theorem map_places : ∀ (e : Re α) (c : Nat), (e.map f).places p c = e.places (p ∘ f) c
  | .one _, _ => rfl
  | .grp _ e, c => by simp only [Re.map, Re.places, map_places e, map_open f p e]
  | .cat a b, c => by simp only [Re.map, Re.places, map_places a, map_places b, map_open f p a, map_forks f p b]
  | .alt a b, c => by simp only [Re.map, Re.places, map_places a, map_places b]
  | .star e, c => by simp only [Re.map, Re.places, map_places e, map_open f p e, map_forks f p e]
  | .plus e, c => by simp only [Re.map, Re.places, map_places e, map_open f p e, map_forks f p e]
  | .opt e, c => by simp only [Re.map, Re.places, map_places e]

theorem map_post (e : Re α) : (e.map f).post = e.post := by cases e <;> rfl

theorem map_single : ∀ e : Re α, (e.map f).single = e.single
  | .one _ => rfl
  | .grp _ e => map_single e
  | .cat a b => by simp only [Re.map, Re.single, map_single a, map_single b]
  | .alt a b => by simp only [Re.map, Re.single, map_single a, map_single b]
  | .star e => by simp only [Re.map, Re.single, map_single e, map_post]
  | .plus e => by simp only [Re.map, Re.single, map_single e, map_post]
  | .opt e => by simp only [Re.map, Re.single, map_single e, map_post]

theorem map_strict : ∀ e : Re α, (e.map f).strict p = e.strict (p ∘ f)
  | .one _ => rfl
  | .grp _ e => map_strict e
  | .cat a b => by simp only [Re.map, Re.strict, map_strict a, map_strict b]
  | .alt a b => by simp only [Re.map, Re.strict, map_strict a, map_strict b]
  | .star e => by simp only [Re.map, Re.strict, map_strict e, map_null]
  | .plus e => by simp only [Re.map, Re.strict, map_strict e, map_null]
  | .opt e => map_strict e

theorem map_fits (e : Re α) : (e.map f).fits p = e.fits (p ∘ f) := by
  have h : (e.map f).all p = e.all (p ∘ f) := by
    unfold Re.all
    rw [map_places, map_open]
  unfold Re.fits
  rw [h, map_single, map_strict, map_forks]
end

theorem eat_opOf (ic dot : Bool) : eatOp ∘ opOf ic dot = Sur.eats := by
  funext a
  cases a <;> simp only [Function.comp, opOf, Sur.eats, Spec.Sur.eats] <;> first | rfl | (split <;> rfl)

theorem plain_calm {ic : Bool} {o : Op} (h : plainOp ic o = true) : calm o := by
  refine ⟨plain_atom h, ?_⟩
  cases o <;> first | exact .inl rfl | exact .inr rfl | cases h

/-- The matcher answers for every program compiled from symbols that fit. -/
theorem regex_answers {cap n k : Nat} {ic full : Bool} {ts : List (Tok Op)} {P : Prog} {e : Re Op} {E : Env} {cs : List Nat} {pre rest : List Byte}
    (hp : ∀ o, Tok.one o ∈ ts → plainOp ic o = true) (hc : compile cap ic ts = .ok (P, n)) (hg : G 0 0 ts e n)
    (hf : e.fits eatOp = true) (hin : Input E cs pre rest) (hpl : Plain P E) (hk : k ≤ cs.length) : ∃ ret o, exec P E full (off pre cs k) true = some (ret, o) ∧ ret ≠ -1 := by
  simp only [Re.fits, Bool.and_eq_true, Bool.or_eq_true, decide_eq_true_eq] at hf
  obtain ⟨⟨⟨f1, f2⟩, f3⟩, f4⟩ := hf
  obtain ⟨A, w, L, hR, h1, h2⟩ := compile_room hc hg (compile_uniform hp hc) (fun o ho => plain_calm (hp o ho)) f1 f2
  have h3 : L.length = (e.all eatOp).length := by rw [← h2, List.length_map]
  exact exec_room hR hin hpl (by rw [h1, h2, h3]; exact f3) (by rw [h1, h2, h3]; exact f4) hk

section
variable {n k bytes : Nat} {ic dot full : Bool} {s : List Nat} {l : List (Tok Sur)} {e : Re Sur} {P : Prog} {E : Env} {U : Test → Nat → Bool} {cs : List Nat} {pre rest : List Byte}

/-- A pattern that fits: matching stays in the memory, ends, and gives an answer (1 or 0, not an error),
for every text, if `malloc` succeeds. The text is terminated, or the pattern begins with something else
than an ASCII character or `^`. -/
theorem pattern_answers (hs : Spells ic s l) (hn : (l.filter isCls).length ≤ 16) (hc : regcomp ic dot bytes s = .ok (P, n)) (hg : G 0 0 l e n) (hf : e.fits Sur.eats = true)
    (hin : Input E cs pre rest) (hend : Soft E ∨ FreeHead ic e) (hk : k ≤ cs.length) :
    ∃ ret o, exec P E full (off pre cs k) true = some (ret, o) ∧ (ret = 0 ∨ ret = 1) := by
  rw [regcomp_spells hs hn] at hc
  have hpl : Plain P E := by
    rcases hend with h | h
    · exact .inl h
    · exact .inr (head_start hc (G_map (opOf ic dot) hg) (free_head h (ones_head (G_ones hg (spells_fine hs)))))
  obtain ⟨ret, o, hx, hret⟩ := regex_answers (full := full) (spells_plain hs) hc (G_map (opOf ic dot) hg) (by rw [map_fits, eat_opOf]; exact hf) hin hpl hk
  have := regex_match_results (spells_plain hs) hc hpl hx
  exact ⟨ret, o, hx, by omega⟩

/-- A pattern that fits is found where it matches first, and the longest match there is reported with its
groups; or there is no match and 0 is returned. -/
theorem pattern_search (hs : Spells ic s l) (hn : (l.filter isCls).length ≤ 16) (hw : Tok.one Sur.wb ∈ l → Edges E cs) (hc : regcomp ic dot bytes s = .ok (P, n)) (hU : E.grp = grpOf U) (hg : G 0 0 l e n)
    (hf : e.fits Sur.eats = true) (hin : Input E cs pre rest) (hcov : Covered ic l e (Soft E) cs k) (hk : k ≤ cs.length) :
    (∃ x i j g, exec P E false (off pre cs k) true = some (1, some x) ∧ Spec.Best (Sur.has ic dot U cs) e cs.length k i j g ∧ x.start = off pre cs i ∧ x.stop = off pre cs j ∧
      ∀ y, x.sub y = subOf (mapG pre cs g y)) ∨
    ∃ o, exec P E false (off pre cs k) true = some (0, o) ∧ NoMatch (Sur.has ic dot U cs) e cs.length k := by
  obtain ⟨ret, o, hx, hr⟩ := pattern_answers (full := false) hs hn hc hg hf hin (by
    rcases hcov with h | h
    · exact .inl h.1
    · exact .inr h.1) hk
  rcases round hs hn hw hc hU hg hin hcov hk hx (by omega) with ⟨rfl, x, i, j, g, rfl, h⟩ | ⟨rfl, h⟩
  · exact .inl ⟨x, i, j, g, hx, h⟩
  · exact .inr ⟨o, hx, h⟩

/-- Replacing with a pattern that fits. -/
theorem replace_fits {r junk : List Byte} {ps : List Piece} {tr : Nat → List Byte → Option (List Byte)} {copy : Bool}
    (hs : Spells ic s l) (hn : (l.filter isCls).length ≤ 16) (hw : Tok.one Sur.wb ∉ l) (hc : regcomp ic dot bytes s = .ok (P, n)) (hU : E.grp = grpOf U) (hg : G 0 0 l e n) (hf : e.fits Sur.eats = true)
    (hps : Reads r ps) (hm : E.m = pre ++ text cs ++ rest) (ht : Text cs) (hend : ∃ x y, rune E.m (pre.length + (text cs).length) = some (x, y))
    (hcov : Covered ic l e (rest.head? = some 0#8) cs 0) (count : Nat) :
    ∃ s' out, replacePro P n E true pre.length (text cs).length (r ++ 0#8 :: junk) count tr copy = some s' ∧ Cstr.mem s' = some (out ++ [0#8]) ∧
      Replaced (Sur.has ic dot U) e (fun gt => value (n + 1) (fun k => (tr k (gt k)).getD (gt k)) ps) (fun b => if copy then b else []) count cs out := by
  refine replace_partial hs hn hw hc hU hg hps hm ht hend hcov (fun j hj => ?_) count
  have hsplit : text cs = text (cs.take j) ++ text (cs.drop j) := by rw [← text_app, List.take_append_drop]
  have hlen : off pre cs j = (pre ++ text (cs.take j)).length := by simp [off]
  have hend' : off pre cs j + (text (cs.drop j)).length = pre.length + (text cs).length := by
    rw [hlen, hsplit]; simp only [List.length_append]; omega
  have hin : Input { E with bol := off pre cs j, eol := some (off pre cs j + (text (cs.drop j)).length) } (cs.drop j) (pre ++ text (cs.take j)) rest := by
    refine ⟨fun c hc => ht c (List.mem_of_mem_drop hc), ?_, hlen, .inr ⟨by simp only [hlen], ?_⟩⟩
    · simp only [hm, hsplit, List.append_assoc]
    · rw [← hlen, hend']
      exact hend
  obtain ⟨ret, o, hx, hr⟩ := pattern_answers (full := false) (k := 0) hs hn hc hg hf hin (by
    rcases hcov with h | h
    · left
      intro z hz
      obtain rfl := Option.some.inj hz
      have h0 := h.1
      cases rest with
      | nil => cases h0
      | cons b rest =>
        cases h0
        show E.m[_]? = _
        rw [hend', hm, show pre.length + (text cs).length = (pre ++ text cs).length by simp, List.getElem?_append_right (Nat.le_refl _), Nat.sub_self]
        rfl
    · exact .inr h.1) (by omega)
  rw [off_zero, ← hlen] at hx
  exact ⟨ret, o, hx, by omega⟩

/-- Going through the matches of a pattern that fits: the loop ends, and the matches are visited in the
order in which they are found one behind the other. -/
theorem iterate_fits (hs : Spells ic s l) (hn : (l.filter isCls).length ≤ 16) (hw : Tok.one Sur.wb ∈ l → Edges E cs) (hc : regcomp ic dot bytes s = .ok (P, n)) (hU : E.grp = grpOf U) (hg : G 0 0 l e n) (hf : e.fits Sur.eats = true)
    (hin : Input E cs pre rest) (heol : E.eol = none) (hcov : ∀ k ≤ cs.length, Covered ic l e True cs k) {f : Nat} (hk : k ≤ cs.length) (hfuel : cs.length - k < f) :
    ∃ ms w, iterLoop P E true f (off pre cs k) = some (ms, true) ∧ Walk (Sur.has ic dot U) e cs k w ∧
      List.Forall₂ (fun x y => x.start = off pre cs y.1 ∧ x.stop = off pre cs y.2.1 ∧ ∀ z, x.sub z = subOf (mapG pre cs y.2.2 z)) ms w := by
  refine iterate_partial hs hn hw hc hU hg hin heol hcov (fun k hk => ?_) hk hfuel
  obtain ⟨ret, o, hx, hr⟩ := pattern_answers (full := false) hs hn hc hg hf hin (.inl (Soft.of_none heol)) hk
  exact ⟨ret, o, hx, by omega⟩

end

/-! ### literal texts -/

/-- The characters `a :: w` one behind the other; `con` is `Sur.chr`, or `Sur.lit` for quoted text. -/
def word (con : Nat → Sur) (a : Nat) (w : List Nat) : Re Sur := w.foldl (fun e b => .cat e (.one (con b))) (.one (con a))

section
variable {con : Nat → Sur} {cs : List Nat} {U : Test → Nat → Bool} {dot : Bool}

theorem foldl_G : ∀ (w : List Nat) {ts : List (Tok Sur)} {e : Re Sur}, G 1 0 ts e 0 → G 1 0 (ts ++ w.map fun c => .one (con c)) (w.foldl (fun e b => .cat e (.one (con b))) e) 0
  | [], ts, e, h => by simpa using h
  | b :: w, ts, e, h => by
    have := foldl_G w (h.cat (.one (a := con b)))
    simpa using this

theorem word_G (a : Nat) (w : List Nat) : G 0 0 ((a :: w).map fun c => .one (con c)) (word con a w) 0 := .seq (foldl_G w (ts := [.one (con a)]) (.item .one))

theorem foldl_fits (hcon : ∀ c, (con c).eats = true) : ∀ (w : List Nat) {e : Re Sur}, e.open Sur.eats = true → e.single = true → e.strict Sur.eats = true →
    let e' := w.foldl (fun e b => .cat e (.one (con b))) e
    e'.open Sur.eats = true ∧ e'.single = true ∧ e'.strict Sur.eats = true ∧ e'.places Sur.eats 0 = e.places Sur.eats 0 ++ List.replicate w.length 0 ∧ e'.forks Sur.eats 0 = e.forks Sur.eats 0
  | [], e, h1, h2, h3 => by simp [h1, h2, h3]
  | b :: w, e, h1, h2, h3 => by
    have := foldl_fits hcon w (e := .cat e (.one (con b))) (by simp [Re.open, hcon]) (by simp [Re.single, h2]) (by simp [Re.strict, h3])
    simp only [List.foldl_cons] at this ⊢
    obtain ⟨q1, q2, q3, q4, q5⟩ := this
    refine ⟨q1, q2, q3, ?_, ?_⟩
    · rw [q4]
      simp [Re.places, Re.forks, hcon, h1, List.replicate_succ]
    · rw [q5]
      simp [Re.forks, hcon]

theorem word_fits (hcon : ∀ c, (con c).eats = true) {a : Nat} {w : List Nat} (h : (a :: w).length ≤ 96) : (word con a w).fits Sur.eats = true := by
  obtain ⟨q1, q2, q3, q4, q5⟩ := foldl_fits hcon w (e := .one (con a)) (by simp [Re.open, hcon]) rfl rfl
  have hall : (word con a w).all Sur.eats = List.replicate w.length 0 ++ [0] := by
    unfold Re.all word
    rw [q1, q4]
    simp [Re.places]
  have hf : (word con a w).forks Sur.eats 0 = 0 := by
    rw [show (word con a w).forks Sur.eats 0 = _ from q5]
    simp [Re.forks, hcon]
  unfold Re.fits
  rw [hall, hf, show (word con a w).single = true from q2, show (word con a w).strict Sur.eats = true from q3]
  simp only [List.length_cons] at h
  simp
  omega

theorem foldl_matches (hcon : ∀ c i j, Sur.has false dot U cs (con c) i j ↔ cs[i]? = some c ∧ j = i + 1) : ∀ (w : List Nat) {e : Re Sur} {i j : Nat},
    Matches (Sur.has false dot U cs) (w.foldl (fun e b => .cat e (.one (con b))) e) i j ↔ ∃ m, Matches (Sur.has false dot U cs) e i m ∧ w <+: cs.drop m ∧ j = m + w.length
  | [], e, i, j => by simp
  | b :: w, e, i, j => by
    rw [List.foldl_cons, foldl_matches hcon w]
    constructor
    · rintro ⟨m, h1, h2, h3⟩
      cases h1 with
      | cat h4 h5 =>
        cases h5 with
        | one h5 =>
          obtain ⟨h6, rfl⟩ := (hcon _ _ _).1 h5
          refine ⟨_, h4, ?_, by simp only [List.length_cons]; omega⟩
          obtain ⟨hlt, he⟩ := List.getElem?_eq_some_iff.1 h6
          rw [List.drop_eq_getElem_cons hlt, he]
          exact (List.prefix_cons_inj b).2 h2
    · rintro ⟨m, h1, h2, h3⟩
      have hlt : m < cs.length := by
        by_contra hge
        rw [List.drop_eq_nil_of_le (by omega)] at h2
        cases List.prefix_nil.1 h2
      rw [List.drop_eq_getElem_cons hlt] at h2
      obtain ⟨h4, h5⟩ := List.cons_prefix_cons.1 h2
      exact ⟨m + 1, .cat h1 (.one ((hcon _ _ _).2 ⟨by rw [List.getElem?_eq_getElem hlt, h4], rfl⟩)), h5, by simp only [List.length_cons] at h3; omega⟩

theorem word_matches (hcon : ∀ c i j, Sur.has false dot U cs (con c) i j ↔ cs[i]? = some c ∧ j = i + 1) {a : Nat} {w : List Nat} {i j : Nat} :
    Matches (Sur.has false dot U cs) (word con a w) i j ↔ (a :: w) <+: cs.drop i ∧ j = i + (a :: w).length := by
  have := foldl_matches hcon (a :: w) (e := .star (.one (con a))) (i := i) (j := j)
  unfold word
  rw [foldl_matches hcon]
  constructor
  · rintro ⟨m, h1, h2, h3⟩
    cases h1 with
    | one h1 =>
      obtain ⟨h6, rfl⟩ := (hcon _ _ _).1 h1
      obtain ⟨hlt, he⟩ := List.getElem?_eq_some_iff.1 h6
      rw [List.drop_eq_getElem_cons hlt, he]
      exact ⟨(List.prefix_cons_inj a).2 h2, by simp only [List.length_cons]; omega⟩
  · rintro ⟨h2, h3⟩
    have hlt : i < cs.length := by
      by_contra hge
      rw [List.drop_eq_nil_of_le (by omega)] at h2
      cases List.prefix_nil.1 h2
    rw [List.drop_eq_getElem_cons hlt] at h2
    obtain ⟨h4, h5⟩ := List.cons_prefix_cons.1 h2
    exact ⟨i + 1, .one ((hcon _ _ _).2 ⟨by rw [List.getElem?_eq_getElem hlt, h4], rfl⟩), h5, by simp only [List.length_cons] at h3; omega⟩

variable {n k bytes : Nat} {P : Prog} {E : Env} {pre rest : List Byte}

theorem word_search {s : List Nat} {a : Nat} {w : List Nat} (hs : Spells false s ((a :: w).map fun c => .one (con c))) (hcls : ∀ c, isCls (.one (con c)) = false)
    (hb : ∀ c, con c ≠ .bol) (hcon : ∀ c i j, Sur.has false dot U cs (con c) i j ↔ cs[i]? = some c ∧ j = i + 1) (he : ∀ c, (con c).eats = true) (hw : (a :: w).length ≤ 96)
    (hc : regcomp false dot bytes s = .ok (P, n)) (hU : E.grp = grpOf U) (hin : Input E cs pre rest) (hsoft : Soft E) (hk : k ≤ cs.length) :
    (∃ x i, exec P E false (off pre cs k) true = some (1, some x) ∧ k ≤ i ∧ (a :: w) <+: cs.drop i ∧ x.start = off pre cs i ∧ x.stop = off pre cs (i + (a :: w).length) ∧
      ∀ i', k ≤ i' → (a :: w) <+: cs.drop i' → i ≤ i') ∨
    ∃ o, exec P E false (off pre cs k) true = some (0, o) ∧ ∀ i, k ≤ i → ¬ (a :: w) <+: cs.drop i := by
  have hg := word_G (con := con) a w
  have hn : (((a :: w).map fun c => Tok.one (con c)).filter isCls).length ≤ 16 := by
    rw [List.filter_eq_nil_iff.2]
    · simp
    · intro t ht
      obtain ⟨c, -, rfl⟩ := List.mem_map.1 ht
      simp [hcls]
  have hn0 : n = 0 := by
    rcases pattern_compiled hs hn hc with ⟨h, -⟩ | ⟨e', h⟩
    · cases h
    · exact (pattern_unambiguous h hg).2
  subst hn0
  have hle : ∀ i, (a :: w) <+: cs.drop i → i ≤ cs.length := by
    intro i hi
    by_contra hge
    rw [List.drop_eq_nil_of_le (by omega)] at hi
    cases List.prefix_nil.1 hi
  rcases pattern_search hs hn (fun h => by
      obtain ⟨c, -, h⟩ := List.mem_map.1 h
      have := he c
      rw [Tok.one.inj h] at this
      cases this) hc hU hg (word_fits he hw) hin (.inl ⟨hsoft, fun h => by
      obtain ⟨c, -, h⟩ := List.mem_map.1 h
      exact absurd (Tok.one.inj h) (hb c), fun h => by cases h⟩) hk with ⟨x, i, j, g, h1, h2, h3, h4, -⟩ | ⟨o, h1, h2⟩
  · obtain ⟨q1, q2, q3, q4, q5⟩ := h2
    obtain ⟨q6, rfl⟩ := (word_matches hcon).1 (parse_matches q4)
    exact .inl ⟨x, i, h1, q1, q6, h3, h4, fun i' h5 h6 => (q5 i' _ h5 (hle i' h6) ((word_matches hcon).2 ⟨h6, rfl⟩)).1⟩
  · exact .inr ⟨o, h1, fun i h3 h4 => h2 i _ h3 (hle i h4) ((word_matches hcon).2 ⟨h4, rfl⟩)⟩

theorem spells_chr {w : List Nat} (h : ∀ c ∈ w, Spec.plain c = true ∧ c < 0x110000) : Spells false w (w.map fun c => .one (.chr c)) := by
  induction w with
  | nil => exact .nil
  | cons a w ih => exact .tok (t := .one (.chr a)) (fun b hb => by cases hb; exact h a (by simp)) (fun h => by cases h) (ih fun c hc => h c (by simp [hc]))

theorem has_chr (c i j : Nat) : (Spec.Char1 cs (Spec.Same false c) i j) ↔ cs[i]? = some c ∧ j = i + 1 := by
  constructor
  · rintro ⟨r, h1, h2, rfl⟩
    have : r = c := by simpa [Spec.Same] using h2
    subst this
    exact ⟨h1, rfl⟩
  · rintro ⟨h1, rfl⟩
    exact ⟨c, h1, by simp [Spec.Same], rfl⟩

/-- Searching for a text of 1 to 96 characters that have no special meaning finds its first occurrence;
or there is none and 0 is returned. -/
theorem literal_search {w : List Nat} (hne : w ≠ []) (hw : w.length ≤ 96) (hpl : ∀ c ∈ w, Spec.plain c = true ∧ c < 0x110000)
    (hc : regcomp false dot bytes w = .ok (P, n)) (hU : E.grp = grpOf U) (hin : Input E cs pre rest) (hsoft : Soft E) (hk : k ≤ cs.length) :
    (∃ x i, exec P E false (off pre cs k) true = some (1, some x) ∧ k ≤ i ∧ w <+: cs.drop i ∧ x.start = off pre cs i ∧ x.stop = off pre cs (i + w.length) ∧
      ∀ i', k ≤ i' → w <+: cs.drop i' → i ≤ i') ∨
    ∃ o, exec P E false (off pre cs k) true = some (0, o) ∧ ∀ i, k ≤ i → ¬ w <+: cs.drop i := by
  cases w with
  | nil => exact absurd rfl hne
  | cons a w => exact word_search (con := Sur.chr) (spells_chr hpl) (fun _ => rfl) (fun _ h => by cases h) has_chr (fun _ => rfl) hw hc hU hin hsoft hk

/-- The same for quoted text, `\Q..\E`, with any characters except the backslash. -/
theorem quoted_search {w : List Nat} (hne : w ≠ []) (hw : w.length ≤ 96) (h0 : 0 ∉ w) (h92 : 92 ∉ w) (hlt : ∀ c ∈ w, c < 0x110000)
    (hc : regcomp false dot bytes ([92, 81] ++ w ++ [92, 69]) = .ok (P, n)) (hU : E.grp = grpOf U) (hin : Input E cs pre rest) (hsoft : Soft E) (hk : k ≤ cs.length) :
    (∃ x i, exec P E false (off pre cs k) true = some (1, some x) ∧ k ≤ i ∧ w <+: cs.drop i ∧ x.start = off pre cs i ∧ x.stop = off pre cs (i + w.length) ∧
      ∀ i', k ≤ i' → w <+: cs.drop i' → i ≤ i') ∨
    ∃ o, exec P E false (off pre cs k) true = some (0, o) ∧ ∀ i, k ≤ i → ¬ w <+: cs.drop i := by
  have hs := Spells.quote (ic := false) h0 h92 hlt .nil
  rw [List.append_nil, List.append_nil] at hs
  cases w with
  | nil => exact absurd rfl hne
  | cons a w => exact word_search (con := Sur.lit) hs (fun _ => rfl) (fun _ h => by cases h) has_chr (fun _ => rfl) hw hc hU hin hsoft hk

end

/-! ### cases, and what fails -/

/-- `[a-c\t]+\.(\d|\Q*\E)` fits. -/
example : demoRe.fits Sur.eats = true := by decide +kernel

/-- `^(\w+|[^,]*)(,.*)?$` fits. -/
example : (Re.cat (.cat (.cat (.one .bol) (.grp 1 (.alt (.plus (.one (.short 119 (.grp 0) false))) (.star (.one (.cls true [.chr 44] false)))))) (.opt (.grp 2 (.cat (.one (.chr 44)) (.star (.one .dot)))))) (.one .eol)).fits Sur.eats = true := by decide +kernel

/-- "aab" is found in "aaab", from position 1 on. -/
example : patResult false false false [97, 97, 98] (strU [97, 97, 97, 98]) = some (some (1, some (1, 4, ⟨none, 0⟩))) := by decide +kernel

example : (∀ c ∈ [97, 97, 98], Spec.plain c = true ∧ c < 0x110000) ∧ Input (strU [97, 97, 97, 98]) [97, 97, 97, 98] [] [0#8] ∧ Soft (strU [97, 97, 97, 98]) :=
  ⟨by decide, strU_input (by decide), .of_none rfl⟩

/-- `\Qa*\E` is found in "aa*". -/
example : patResult false false false ([92, 81] ++ [97, 42] ++ [92, 69]) (strU [97, 97, 42]) = some (some (1, some (1, 3, ⟨none, 0⟩))) := by decide +kernel

/-- `(a*|b*)*` does not. -/
example : (Re.star (.grp 1 (.alt (.star (.one (.chr 97))) (.star (.one (.chr 98)))))).fits Sur.eats = false := by decide +kernel

end Verif.Regex
