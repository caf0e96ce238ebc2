import Verif.Regex.Depth
import Verif.Utf8.ClassProps
/-
Patterns such as `\w+` or `[0-9]+`: going through their matches visits exactly the maximal runs of the
characters, and replacing replaces them. With the Unicode tables of the code in place of the parameter.
-/
namespace Verif.Regex.Spec
open Verif.Utf8 (Byte)
open Verif.Utf8.Spec (text enc)

/-- The maximal runs of characters with the property `p`: where they begin and end. The text begins at
position `i`. -/
def spans (p : Nat → Bool) : List Nat → Nat → List (Nat × Nat)
  | [], _ => []
  | c :: cs, i =>
    if p c then (i, i + 1 + (cs.takeWhile p).length) :: spans p (cs.dropWhile p) (i + 1 + (cs.takeWhile p).length) else spans p cs (i + 1)
termination_by cs => cs.length
decreasing_by
  · have := (List.dropWhile_suffix (l := cs) p).length_le
    simp only [List.length_cons]; omega
  · simp

/-- Every maximal run is replaced by `f` of it, every other character by `g` of it. -/
def squeeze (p : Nat → Bool) (f : List Nat → List Byte) (g : Nat → List Byte) : List Nat → List Byte
  | [] => []
  | c :: cs => if p c then f (c :: cs.takeWhile p) ++ squeeze p f g (cs.dropWhile p) else g c ++ squeeze p f g cs
termination_by cs => cs.length
decreasing_by
  · have := (List.dropWhile_suffix (l := cs) p).length_le
    simp only [List.length_cons]; omega
  · simp

end Verif.Regex.Spec

namespace Verif.Regex
open Verif.Utf8 (Byte)
open Verif.Utf8.Spec (text enc Text)
open Spec (Tok Re G Sur Spells Char1 Matches Best NoMatch Walk Replaced Groups spans squeeze Piece Reads value)

theorem spans_skip {p : Nat → Bool} : ∀ {l r : List Nat} {k : Nat}, (∀ c ∈ l, p c = false) → spans p (l ++ r) k = spans p r (k + l.length)
  | [], _, _, _ => rfl
  | c :: l, r, k, h => by
    rw [List.cons_append, spans, if_neg (by rw [h c (by simp)]; simp), spans_skip fun c hc => h c (by simp [hc])]
    congr 1
    rw [List.length_cons]; omega

theorem take_run {p : Nat → Bool} : ∀ {l r : List Nat}, (∀ c ∈ l, p c = true) → (∀ c, r.head? = some c → p c = false) → (l ++ r).takeWhile p = l ∧ (l ++ r).dropWhile p = r
  | [], [], _, _ => ⟨rfl, rfl⟩
  | [], c :: r, _, h => by simp [h c rfl]
  | c :: l, r, h1, h2 => by
    obtain ⟨q1, q2⟩ := take_run (l := l) (fun c hc => h1 c (by simp [hc])) h2
    simp [h1 c (by simp), q1, q2]

theorem spans_run {p : Nat → Bool} {l r : List Nat} {k : Nat} (hne : l ≠ []) (h1 : ∀ c ∈ l, p c = true) (h2 : ∀ c, r.head? = some c → p c = false) :
    spans p (l ++ r) k = (k, k + l.length) :: spans p r (k + l.length) := by
  cases l with
  | nil => exact absurd rfl hne
  | cons c l =>
    obtain ⟨q1, q2⟩ := take_run (l := l) (fun c hc => h1 c (by simp [hc])) h2
    rw [List.cons_append, spans, if_pos (h1 c (by simp)), q1, q2, List.length_cons, show k + 1 + l.length = k + (l.length + 1) by omega]

theorem squeeze_skip {p : Nat → Bool} {f : List Nat → List Byte} {g : Nat → List Byte} : ∀ {l r : List Nat}, (∀ c ∈ l, p c = false) → squeeze p f g (l ++ r) = l.flatMap g ++ squeeze p f g r
  | [], _, _ => rfl
  | c :: l, r, h => by
    rw [List.cons_append, squeeze, if_neg (by rw [h c (by simp)]; simp), squeeze_skip fun c hc => h c (by simp [hc]), List.flatMap_cons, List.append_assoc]

theorem squeeze_run {p : Nat → Bool} {f : List Nat → List Byte} {g : Nat → List Byte} {l r : List Nat} (hne : l ≠ []) (h1 : ∀ c ∈ l, p c = true) (h2 : ∀ c, r.head? = some c → p c = false) :
    squeeze p f g (l ++ r) = f l ++ squeeze p f g r := by
  cases l with
  | nil => exact absurd rfl hne
  | cons c l =>
    obtain ⟨q1, q2⟩ := take_run (l := l) (fun c hc => h1 c (by simp [hc])) h2
    rw [List.cons_append, squeeze, if_pos (h1 c (by simp)), q1, q2]

section
variable {α : Type} {R : List Nat → α → Nat → Nat → Prop} {a : α} {p : Nat → Bool}

/-- The character at `i` has the property. -/
def At (p : Nat → Bool) (cs : List Nat) (i : Nat) : Prop := ∃ c, cs[i]? = some c ∧ p c = true

theorem star_run {S : α → Nat → Nat → Prop} {cs : List Nat} (hR : ∀ i j, S a i j ↔ Char1 cs (fun c => p c = true) i j) {e : Re α} {i j : Nat} (h : Matches S e i j) :
    e = .star (.one a) → i ≤ j ∧ ∀ x, i ≤ x → x < j → At p cs x := by
  induction h with
  | one | grp | cat | altL | altR | plus | optNil | opt => intro h; cases h
  | starNil => exact fun _ => ⟨Nat.le_refl _, fun x h1 h2 => absurd h1 (by omega)⟩
  | @starCons e i j l h1 _ _ ih2 =>
    intro he
    obtain rfl := Re.star.inj he
    obtain ⟨q1, q2⟩ := ih2 rfl
    cases h1 with
    | one h1 =>
      obtain ⟨c, h3, h4, rfl⟩ := (hR _ _).1 h1
      refine ⟨by omega, fun x h5 h6 => ?_⟩
      rcases Nat.lt_or_ge i x with h7 | h7
      · exact q2 x (by omega) h6
      · obtain rfl : x = i := by omega
        exact ⟨c, h3, h4⟩

theorem run_star {S : α → Nat → Nat → Prop} {cs : List Nat} (hR : ∀ i j, S a i j ↔ Char1 cs (fun c => p c = true) i j) : ∀ (n i : Nat), (∀ x, i ≤ x → x < i + n → At p cs x) →
    Matches S (.star (.one a)) i (i + n)
  | 0, _, _ => .starNil
  | n + 1, i, h => by
    obtain ⟨c, h1, h2⟩ := h i (Nat.le_refl _) (by omega)
    have := run_star hR n (i + 1) fun x h3 h4 => h x (by omega) (by omega)
    rw [show i + (n + 1) = i + 1 + n by omega]
    exact .starCons (.one ((hR _ _).2 ⟨c, h1, h2, rfl⟩)) this

theorem plus_run {S : α → Nat → Nat → Prop} {cs : List Nat} (hR : ∀ i j, S a i j ↔ Char1 cs (fun c => p c = true) i j) {i j : Nat} :
    Matches S (.plus (.one a)) i j ↔ i < j ∧ ∀ x, i ≤ x → x < j → At p cs x := by
  constructor
  · intro h
    cases h with
    | plus h1 h2 =>
      cases h1 with
      | one h1 =>
        obtain ⟨c, h3, h4, rfl⟩ := (hR _ _).1 h1
        obtain ⟨q1, q2⟩ := star_run hR h2 rfl
        refine ⟨by omega, fun x h5 h6 => ?_⟩
        rcases Nat.lt_or_ge i x with h7 | h7
        · exact q2 x (by omega) h6
        · obtain rfl : x = i := by omega
          exact ⟨c, h3, h4⟩
  · rintro ⟨h1, h2⟩
    obtain ⟨c, h3, h4⟩ := h2 i (Nat.le_refl _) h1
    obtain ⟨n, rfl⟩ : ∃ n, j = i + 1 + n := ⟨j - i - 1, by omega⟩
    exact .plus (.one ((hR _ _).2 ⟨c, h3, h4, rfl⟩)) (run_star hR n (i + 1) fun x h5 h6 => h2 x (by omega) (by omega))

theorem at_lt {cs : List Nat} {i : Nat} (h : At p cs i) : i < cs.length := by
  obtain ⟨c, h1, -⟩ := h
  exact (List.getElem?_eq_some_iff.1 h1).1

theorem no_run {S : α → Nat → Nat → Prop} {cs : List Nat} (hR : ∀ i j, S a i j ↔ Char1 cs (fun c => p c = true) i j) {k : Nat} (h : NoMatch S (.plus (.one a)) cs.length k) :
    ∀ c ∈ cs.drop k, p c = false := by
  intro c hc
  by_contra hp
  obtain ⟨n, hn, rfl⟩ := List.getElem_of_mem hc
  rw [List.length_drop] at hn
  have ha : At p cs (k + n) := ⟨_, by rw [← List.getElem?_drop]; exact List.getElem?_eq_getElem (by rw [List.length_drop]; exact hn), by simpa using hp⟩
  refine h (k + n) (k + n + 1) (by omega) (by omega) ((plus_run hR).2 ⟨by omega, fun x h1 h2 => ?_⟩)
  obtain rfl : x = k + n := by omega
  exact ha

/-- The text from `k` on: what is skipped, the run, and the rest. -/
theorem best_run {S : α → Nat → Nat → Prop} {cs : List Nat} (hR : ∀ i j, S a i j ↔ Char1 cs (fun c => p c = true) i j) {k i j : Nat} {g : Groups} (h : Spec.Best S (.plus (.one a)) cs.length k i j g) :
    k ≤ i ∧ i < j ∧ j ≤ cs.length ∧ (∀ c ∈ (cs.drop k).take (i - k), p c = false) ∧ (∀ c ∈ (cs.drop i).take (j - i), p c = true) ∧ (∀ c, (cs.drop j).head? = some c → p c = false) := by
  obtain ⟨h1, -, h3, h4, h5⟩ := h
  obtain ⟨h6, h7⟩ := (plus_run hR).1 (parse_matches h4)
  refine ⟨h1, h6, h3, fun c hc => ?_, fun c hc => ?_, fun c hc => ?_⟩
  · by_contra hp
    obtain ⟨n, hn, he⟩ := List.getElem_of_mem hc
    rw [List.length_take, List.length_drop] at hn
    have hx : cs[k + n]? = some c := by
      rw [← List.getElem?_drop, ← he, List.getElem_take]
      exact List.getElem?_eq_getElem _
    have := (h5 (k + n) (k + n + 1) (by omega) (by omega) ((plus_run hR).2 ⟨by omega, fun x h1 h2 => by
      obtain rfl : x = k + n := by omega
      exact ⟨c, hx, by simpa using hp⟩⟩)).1
    omega
  · obtain ⟨n, hn, he⟩ := List.getElem_of_mem hc
    rw [List.length_take, List.length_drop] at hn
    have hx : cs[i + n]? = some c := by
      rw [← List.getElem?_drop, ← he, List.getElem_take]
      exact List.getElem?_eq_getElem _
    obtain ⟨c', h8, h9⟩ := h7 (i + n) (by omega) (by omega)
    rw [hx] at h8
    cases h8
    exact h9
  · by_contra hp
    rw [List.head?_drop] at hc
    have := (h5 i (j + 1) h1 (by omega) ((plus_run hR).2 ⟨by omega, fun x h8 h9 => by
      rcases Nat.lt_or_ge x j with h | h
      · exact h7 x h8 h
      · obtain rfl : x = j := by omega
        exact ⟨c, hc, by simpa using hp⟩⟩)).2 rfl
    omega

theorem drop_split {cs : List Nat} {i j : Nat} (h : i ≤ j) : cs.drop i = (cs.drop i).take (j - i) ++ cs.drop j := by
  have := List.take_append_drop (j - i) (cs.drop i)
  rw [List.drop_drop, show i + (j - i) = j by omega] at this
  exact this.symm

theorem take_len {cs : List Nat} {i j : Nat} (h : i ≤ j) (hj : j ≤ cs.length) : i + ((cs.drop i).take (j - i)).length = j := by
  rw [List.length_take, List.length_drop]; omega

/-- The matches of `a+` that are visited are the maximal runs. -/
theorem walk_runs (hR : ∀ cs i j, R cs a i j ↔ Char1 cs (fun c => p c = true) i j) {cs : List Nat} {k : Nat} {w : List (Nat × Nat × Groups)} (h : Walk R (.plus (.one a)) cs k w) :
    w.map (fun y => (y.1, y.2.1)) = spans p (cs.drop k) k := by
  induction h with
  | @none k h =>
    have := spans_skip (r := []) (k := k) (no_run (hR cs) h)
    rw [List.append_nil, spans] at this
    rw [this]; rfl
  | empty h =>
    have := (best_run (hR cs) h).2.1
    omega
  | @step k i j g l h hlt _ ih =>
    obtain ⟨q1, q2, q3, q4, q5, q6⟩ := best_run (hR cs) h
    rw [drop_split q1, spans_skip q4, take_len q1 (by omega), drop_split (by omega : i ≤ j), spans_run (by
      intro h0
      have := congrArg List.length h0
      rw [List.length_take, List.length_drop] at this
      simp only [List.length_nil] at this
      omega) q5 q6, take_len (by omega) q3, List.map_cons, ih]

/-- Replacing `a+`, as often as it matches. -/
theorem replaced_runs (hR : ∀ cs i j, R cs a i j ↔ Char1 cs (fun c => p c = true) i j) {sub : (Nat → List Byte) → List Byte} {keep : List Byte → List Byte} {f : List Nat → List Byte} {g : Nat → List Byte}
    (hsub : ∀ cs i j gr, sub (fun k => text (Spec.groupText cs i j gr k)) = f ((cs.drop i).take (j - i))) (hkeep : ∀ l, keep (text l) = l.flatMap g)
    {c : Nat} {cs : List Nat} {out : List Byte} (h : Replaced R (.plus (.one a)) sub keep c cs out) : cs.length < c → out = squeeze p f g cs := by
  induction h with
  | stop => intro h; omega
  | @none c cs h =>
    intro _
    have := squeeze_skip (f := f) (g := g) (r := []) (no_run (hR cs) h)
    rw [List.drop_zero, List.append_nil, squeeze, List.append_nil] at this
    rw [hkeep, this]
  | @step c cs i j gr out h _ ih =>
    intro hc
    obtain ⟨q1, q2, q3, q4, q5, q6⟩ := best_run (hR cs) h
    have e : cs = cs.take i ++ ((cs.drop i).take (j - i) ++ cs.drop j) := by
      have := drop_split (cs := cs) q1
      rw [List.drop_zero, Nat.sub_zero] at this
      rw [← drop_split (by omega : i ≤ j)]
      exact this
    rw [List.drop_zero, Nat.sub_zero] at q4
    conv => rhs; rw [e]
    rw [squeeze_skip q4, squeeze_run (by
      intro h0
      have := congrArg List.length h0
      rw [List.length_take, List.length_drop] at this
      simp only [List.length_nil] at this
      omega) q5 q6, hkeep, hsub, ih (by rw [List.length_drop]; omega), List.append_assoc]

end

/-! ### the patterns -/

theorem value_one {gr gr' : Nat → List Byte} (h : gr 0 = gr' 0) : ∀ ps : List Piece, value 1 gr ps = value 1 gr' ps
  | [] => rfl
  | q :: ps => by
    have ih := value_one h ps
    simp only [value, List.flatMap_cons] at ih ⊢
    rw [ih]
    congr 1
    cases q with
    | chr => rfl
    | dollar => rfl
    | ref d =>
      simp only [Piece.val]
      split
      · obtain rfl : d = 0 := by omega
        exact h
      · rfl
    | ref2 a b =>
      simp only [Piece.val]
      split
      · rename_i hd
        rw [show a * 10 + b = 0 by omega]
        exact h
      · rfl

section
variable {bytes : Nat} {dot : Bool} {a : Sur} {p : Nat → Bool} {E : Env} {U : Test → Nat → Bool} {cs : List Nat} {pre rest : List Byte}

/-- `a+` as symbols. -/
theorem plus_spells (ha : a.ok false) : Spells false (a.show ++ [43]) [.one a, .plus] :=
  .tok (t := .one a) (fun b hb => by cases hb; exact ha) (fun h => by cases h) (.tok (t := .plus) (fun b hb => by cases hb) (fun h => by cases h) .nil)

theorem plus_G : G 0 0 [Tok.one a, .plus] (.plus (.one a)) 0 := .seq (.item (.plus (ts := [.one a]) .one))

theorem plus_fits (he : a.eats = true) : (Re.plus (.one a)).fits Sur.eats = true := by
  simp [Re.fits, Re.single, Re.post, Re.strict, Re.null, Re.all, Re.places, Re.open, Re.forks, he]

theorem plus_bol (he : a.eats = true) : Tok.one Sur.bol ∉ [Tok.one a, .plus] := by
  intro h
  simp only [List.mem_cons, List.not_mem_nil, Tok.one.injEq, or_false] at h
  rcases h with h | h
  · subst h; cases he
  · cases h

theorem plus_wb (he : a.eats = true) : Tok.one Sur.wb ∉ [Tok.one a, .plus] := by
  intro h
  simp only [List.mem_cons, List.not_mem_nil, Tok.one.injEq, or_false] at h
  rcases h with h | h
  · subst h; cases he
  · cases h

theorem plus_cls : ([Tok.one a, .plus].filter isCls).length ≤ 16 := by
  have := List.length_filter_le isCls [Tok.one a, .plus]
  simp only [List.length_cons, List.length_nil] at this
  omega

theorem plus_compiles (ha : a.ok false) (hb : (a.show ++ [43]).length ≤ bytes) : ∃ P, regcomp false dot bytes (a.show ++ [43]) = .ok (P, 0) :=
  pattern_compiles (plus_spells ha) plus_cls hb plus_G (by simp [Re.depth, Re.post]) (by omega)

/-- For an operand that stands for one character (a character, a class, `\w`, `\p{..}`, `.`), with a `+`:
`c_match` visits exactly the maximal runs of such characters, in their order, and ends. -/
theorem runs_visited (ha : a.ok false) (hb : (a.show ++ [43]).length ≤ bytes) (he : a.eats = true) (hp : ∀ cs i j, Sur.has false dot U cs a i j ↔ Char1 cs (fun c => p c = true) i j)
    (hU : E.grp = grpOf U) (hin : Input E cs pre rest) (heol : E.eol = none) {f : Nat} (hf : cs.length < f) :
    ∃ P ms, regcomp false dot bytes (a.show ++ [43]) = .ok (P, 0) ∧ iterLoop P E true f pre.length = some (ms, true) ∧
      ms.map (fun x => (x.start, x.stop)) = (spans p cs 0).map fun y => (off pre cs y.1, off pre cs y.2) := by
  obtain ⟨P, hP⟩ := plus_compiles (dot := dot) ha hb
  obtain ⟨ms, w, h1, h2, h3⟩ := iterate_fits (k := 0) (f := f) (plus_spells ha) plus_cls (fun h => absurd h (plus_wb he)) hP hU plus_G (plus_fits he) hin heol (fun k hk => .inl ⟨trivial, fun h => absurd h (plus_bol he), fun h => by cases h⟩) (by omega) (by omega)
  rw [off_zero] at h1
  have h4 := walk_runs hp h2
  rw [List.drop_zero] at h4
  refine ⟨P, ms, hP, h1, ?_⟩
  rw [← h4, List.map_map]
  clear h1 h2 h4
  induction h3 with
  | nil => rfl
  | cons h _ ih => rw [List.map_cons, List.map_cons, ih]; simp [h.1, h.2.1]

/-- Replacing `a+` without a limit replaces every maximal run by the replacement text, in which `$0` is the
run, and keeps the other characters (or strips them). -/
theorem runs_replaced (ha : a.ok false) (hb : (a.show ++ [43]).length ≤ bytes) (he : a.eats = true) (hp : ∀ cs i j, Sur.has false dot U cs a i j ↔ Char1 cs (fun c => p c = true) i j)
    (hU : E.grp = grpOf U) {r junk : List Byte} {ps : List Piece} {tr : Nat → List Byte → Option (List Byte)} {copy : Bool} (hps : Reads r ps)
    (hm : E.m = pre ++ text cs ++ 0#8 :: rest) (ht : Text cs) {count : Nat} (hc : cs.length < count) :
    ∃ P s' out, regcomp false dot bytes (a.show ++ [43]) = .ok (P, 0) ∧ replacePro P 0 E true pre.length (text cs).length (r ++ 0#8 :: junk) count tr copy = some s' ∧
      Cstr.mem s' = some (out ++ [0#8]) ∧
      out = squeeze p (fun run => value 1 (fun _ => (tr 0 (text run)).getD (text run)) ps) (fun c => if copy then enc c else []) cs := by
  obtain ⟨P, hP⟩ := plus_compiles (dot := dot) ha hb
  obtain ⟨s', out, h1, h2, h3⟩ := replace_fits (junk := junk) (tr := tr) (copy := copy) (plus_spells ha) plus_cls (plus_wb he) hP hU plus_G (plus_fits he) hps hm ht (by
    have : E.m = (pre ++ text cs) ++ 0#8 :: rest := by rw [hm]
    refine ⟨0, 1, ?_⟩
    rw [this, rune, ← List.length_append, List.getElem?_append_right (Nat.le_refl _), Nat.sub_self]
    rfl) (.inl ⟨rfl, fun h => absurd h (plus_bol he), fun h => by cases h⟩) count
  refine ⟨P, s', out, hP, h1, h2, replaced_runs hp (fun cs i j gr => ?_) (fun l => ?_) h3 hc⟩
  · refine value_one ?_ ps
    simp [Spec.groupText]
  · cases copy with
    | false => simp
    | true => simp [text]
end

/-! ### with the Unicode tables of the code -/

/-- The tests of Unicode as `_runematch` calls them (cregex_prv.c 970-990), by the models of the functions in
ucd_prv.c; they are defined for all code points (`tab_defined`). -/
def tabU : Test → Nat → Bool
  | .ualpha, r => (Verif.Utf8.isalpha r).getD false
  | .ualnum, r => (Verif.Utf8.isalnum r).getD false
  | .ublank, r => (Verif.Utf8.isblank r).getD false
  | .ucased, r => (Verif.Utf8.iscased r).getD false
  | .ulower, r => Verif.Utf8.islower r
  | .uupper, r => Verif.Utf8.isupper r
  | .uspace, r => (Verif.Utf8.isspace r).getD false
  | .uword, r => (Verif.Utf8.isword r).getD false
  | .grp g, r => (Verif.Utf8.isgroup g r).getD false
  | _, _ => false

open Verif.Utf8.Spec (Alpha Space InTab) in
/-- What the tests mean. -/
theorem tab_means (r : Nat) : (tabU .uword r = true ↔ Alpha r ∨ InTab Verif.Utf8.tNd r ∨ InTab Verif.Utf8.tPc r) ∧ (tabU .uspace r = true ↔ Space r) ∧
    (tabU (.grp 2) r = true ↔ InTab Verif.Utf8.tNd r) ∧ (tabU .ualpha r = true ↔ Alpha r) := by
  obtain ⟨b1, h1, h2⟩ := Verif.Utf8.class_word r
  obtain ⟨b3, h3, h4⟩ := Verif.Utf8.class_space r
  obtain ⟨b5, h5, h6⟩ := Verif.Utf8.isgroup_tab (g := 2) (t := Verif.Utf8.tNd) r rfl
  obtain ⟨b7, h7, h8⟩ := Verif.Utf8.class_alpha r
  simp only [tabU, h1, h3, h5, h7, Option.getD_some]
  exact ⟨h2, h4, h6, h8⟩

/-- All tests are defined for all code points. -/
theorem tab_defined (r : Nat) : (Verif.Utf8.isalpha r).isSome ∧ (Verif.Utf8.isalnum r).isSome ∧ (Verif.Utf8.isblank r).isSome ∧ (Verif.Utf8.iscased r).isSome ∧
    (Verif.Utf8.isspace r).isSome ∧ (Verif.Utf8.isword r).isSome ∧ ∀ g < 23, (Verif.Utf8.isgroup g r).isSome := by
  obtain ⟨_, h1, -⟩ := Verif.Utf8.class_alpha r
  obtain ⟨_, h2, -⟩ := Verif.Utf8.class_alnum r
  obtain ⟨_, h3, -⟩ := Verif.Utf8.class_blank r
  obtain ⟨_, h4, -⟩ := Verif.Utf8.class_cased r
  obtain ⟨_, h5, -⟩ := Verif.Utf8.class_space r
  obtain ⟨_, h6, -⟩ := Verif.Utf8.class_word r
  refine ⟨by rw [h1]; rfl, by rw [h2]; rfl, by rw [h3]; rfl, by rw [h4]; rfl, by rw [h5]; rfl, by rw [h6]; rfl, fun g hg => ?_⟩
  obtain ⟨_, h7, -⟩ := (Verif.Utf8.class_group g r).2 hg
  rw [h7]; rfl

section
variable {E : Env} {cs : List Nat} {pre rest : List Byte}

/-- Going through the matches of `\w+` visits the words: the maximal runs of word characters, in order. -/
theorem words_visited {word : Nat → Bool} (hw : ∀ r, word r = true ↔ Verif.Utf8.Spec.Alpha r ∨ Verif.Utf8.Spec.InTab Verif.Utf8.tNd r ∨ Verif.Utf8.Spec.InTab Verif.Utf8.tPc r)
    (hU : E.grp = grpOf tabU) (hin : Input E cs pre rest) (heol : E.eol = none) {f : Nat} (hf : cs.length < f) :
    ∃ P ms, regcomp false false 3 [92, 119, 43] = .ok (P, 0) ∧ iterLoop P E true f pre.length = some (ms, true) ∧
      ms.map (fun x => (x.start, x.stop)) = (spans word cs 0).map fun y => (off pre cs y.1, off pre cs y.2) := by
  refine runs_visited (a := .short 119 .uword false) (by simp [Sur.ok, Spec.short]) (by simp [Sur.show]) rfl (fun cs i j => ?_) hU hin heol hf
  have : ∀ c, Spec.Named false tabU .uword false c ↔ word c = true := by
    intro c
    show (Test.uword.holds tabU c = !false) ↔ _
    rw [hw c, ← (tab_means c).1]
    simp [Test.holds]
  simp only [Sur.has, Char1, this]

/-- Replacing `\s+` by the empty text removes the white space. -/
theorem space_removed {space : Nat → Bool} (hw : ∀ r, space r = true ↔ Verif.Utf8.Spec.Space r) (hU : E.grp = grpOf tabU) (hm : E.m = pre ++ text cs ++ 0#8 :: rest) (ht : Text cs)
    {count : Nat} (hc : cs.length < count) {junk : List Byte} :
    ∃ P s', regcomp false false 3 [92, 115, 43] = .ok (P, 0) ∧ replacePro P 0 E true pre.length (text cs).length (0#8 :: junk) count (fun _ _ => none) true = some s' ∧
      Cstr.mem s' = some (text (cs.filter fun c => !space c) ++ [0#8]) := by
  obtain ⟨P, s', out, h1, h2, h3, h4⟩ := runs_replaced (a := .short 115 .uspace false) (p := space) (bytes := 3) (dot := false) (junk := junk) (tr := fun _ _ => none) (copy := true)
    (by simp [Sur.ok, Spec.short]) (by simp [Sur.show]) rfl (fun cs i j => by
      have : ∀ c, Spec.Named false tabU .uspace false c ↔ space c = true := by
        intro c
        show (Test.uspace.holds tabU c = !false) ↔ _
        rw [hw c, ← (tab_means c).2.1]
        simp [Test.holds]
      simp only [Sur.has, Char1, this]) hU (Reads.nil) hm ht hc
  refine ⟨P, s', h1, h2, ?_⟩
  rw [h3, h4]
  congr 2
  clear h1 h2 h3 h4 hm ht hc
  have : ∀ n (cs : List Nat), cs.length ≤ n → squeeze space (fun run => value 1 (fun _ => ((fun _ _ => none : Nat → List Byte → Option (List Byte)) 0 (text run)).getD (text run)) []) (fun c => if true then enc c else []) cs =
      text (cs.filter fun c => !space c) := by
    intro n
    induction n with
    | zero =>
      intro cs h
      cases cs with
      | nil => rw [squeeze]; rfl
      | cons => simp at h
    | succ n ih =>
      intro cs h
      cases cs with
      | nil => rw [squeeze]; rfl
      | cons c cs =>
        simp only [List.length_cons] at h
        rw [squeeze]
        split
        · rename_i hs
          have := (List.dropWhile_suffix (l := cs) space).length_le
          rw [ih _ (by omega), List.filter_cons_of_neg (by simp [hs])]
          conv => rhs; rw [← List.takeWhile_append_dropWhile (p := space) (l := cs)]
          rw [List.filter_append, (List.filter_eq_nil_iff (l := cs.takeWhile space)).2]
          · simp [value]
          · intro x hx
            have := List.mem_takeWhile_imp hx
            simp [this]
        · rename_i hs
          rw [ih _ (by omega), List.filter_cons_of_pos (by simpa using hs)]
          simp [text]
  exact this _ cs (Nat.le_refl _)

end

/-! ### cases -/

/-- A terminated text with the Unicode tables. -/
def strT (cs : List Nat) : Env := ⟨text cs ++ [0#8], 0, none, grpOf tabU, fun _ => false⟩

theorem strT_input {cs : List Nat} (h : Text cs) : Input (strT cs) cs [] [0#8] := ⟨h, rfl, rfl, .inl ⟨rfl, [], rfl⟩⟩

/-- "né 4x" has the words from 0 to 2 and from 3 to 5; in bytes from 0 to 3 and from 4 to 6. -/
example : (spans (fun r => tabU .uword r) [110, 233, 32, 52, 120] 0).map (fun y => (off [] [110, 233, 32, 52, 120] y.1, off [] [110, 233, 32, 52, 120] y.2)) = [(0, 3), (4, 6)] := by
  decide +kernel

example : Input (strT [110, 233, 32, 52, 120]) [110, 233, 32, 52, 120] [] [0#8] ∧ (strT [110, 233, 32, 52, 120]).grp = grpOf tabU ∧
    ∀ r, tabU .uword r = true ↔ Verif.Utf8.Spec.Alpha r ∨ Verif.Utf8.Spec.InTab Verif.Utf8.tNd r ∨ Verif.Utf8.Spec.InTab Verif.Utf8.tPc r :=
  ⟨strT_input (by decide), rfl, fun r => (tab_means r).1⟩

/-- Replacing `[0-9]+` by `<$0>` in "a12b3". -/
example : squeeze (fun r => 48 ≤ r && r ≤ 57) (fun run => value 1 (fun _ => text run) [.chr 60#8, .ref 0, .chr 62#8]) enc [97, 49, 50, 98, 51] =
    text [97, 60, 49, 50, 62, 98, 60, 51, 62] := by decide +kernel

example : (Sur.cls false [.rng 48 57] false).ok false ∧ (Sur.cls false [.rng 48 57] false).eats = true ∧
    ∀ cs i j, Sur.has false false tabU cs (.cls false [.rng 48 57] false) i j ↔ Char1 cs (fun c => (decide (48 ≤ c) && decide (c ≤ 57)) = true) i j :=
  ⟨by simp [Sur.ok, Spec.Item.ok, Spec.Placed, Spec.Item.placed, Spec.plainIn], rfl, fun cs i j => by simp [Sur.has, Char1, Spec.Item.has]⟩

end Verif.Regex
