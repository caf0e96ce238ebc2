import Verif.Zstr.Props
/-
Moving the iterator of a string view by several characters: `csview_advance`
(/repo/include/stc/csview.h:185-193). The object the view lies in is given whole; an iterator is an
index into it, `none` is NULL. Unlike `zsview_advance` the loop looks for the end of the view, not for
a NUL.
-/
namespace Verif.Zstr
open Verif.Utf8 Verif.Csview Verif.Utf8.Spec

/-- csview.h:188-189, moving forward over `n` characters, `r` bytes before the end of the view: the
bytes moved. The list holds the bytes from the pointer to the end of the object. -/
def svFwd : Nat → Nat → List Byte → Option Nat
  | 0, _, _ => some 0
  | _ + 1, 0, _ => some 0
  | n + 1, r + 1, m =>
    (m.tail.head?).bind fun b => (svFwd (if lead b then n else n + 1) r m.tail).map (· + 1)

/-- csview.h:188-189, moving back from a place before the end of the view, which is never met: the
bytes moved. The list holds the bytes before the pointer in the object, nearest first. -/
def svBwd : Nat → List Byte → Option Nat
  | 0, _ => some 0
  | _ + 1, [] => none
  | n + 1, b :: before => (svBwd (if lead b then n else n + 1) before).map (· + 1)

/-- csview.h:185-193 `csview_advance` of an iterator at index `p` with a character of `c` bytes, in a
view that ends at index `e`; negating the least `isize` is undefined, and so is moving an iterator that
reached the end, whose pointer is NULL (the one made by `csview_end` is not modelled). -/
def svAdvance (m : List Byte) (e : Nat) (it : Iter) (k : Int) : Option Iter :=
  match it with
  | (none, _) => none
  | (some p, c) =>
    let q :=
      if k = -2 ^ 63 then none
      else if k < 0 then
        if p = e then some p else (svBwd k.natAbs (m.take p).reverse).map (p - ·)
      else (svFwd k.toNat (e - p) (m.drop p)).map (p + ·)
    q.bind fun q => if q = e then some (none, c) else (chrSize (m.drop q)).map fun n => (some q, n)

theorem svFwd_char : ∀ (tl : List Byte), (∀ x ∈ tl, lead x = false) → ∀ (b x : Byte) (X : List Byte) (r n : Nat),
    svFwd (n + 1) (tl.length + 1 + r) (b :: (tl ++ x :: X)) =
      (svFwd (if lead x then n else n + 1) r (x :: X)).map (· + (tl.length + 1))
  | [], _, b, x, X, r, n => by
    rw [show ([] : List Byte).length + 1 + r = r + 1 by simp; omega, svFwd]
    rfl
  | t :: tl, h, b, x, X, r, n => by
    rw [show (t :: tl).length + 1 + r = (tl.length + 1 + r) + 1 by simp; omega, svFwd]
    simp only [List.cons_append, List.tail_cons, List.head?_cons, Option.bind_some, h t (by simp),
      Bool.false_eq_true, if_false]
    rw [svFwd_char tl (fun y hy => h y (by simp [hy])) t x X r n, Option.map_map]
    congr 1

theorem svFwd_char_nil : ∀ (tl : List Byte), (∀ x ∈ tl, lead x = false) → ∀ (b : Byte) (n : Nat),
    svFwd (n + 1) (tl.length + 1) (b :: tl) = none
  | [], _, b, n => rfl
  | t :: tl, h, b, n => by
    rw [List.length_cons, svFwd]
    simp only [List.tail_cons, List.head?_cons, Option.bind_some, h t (by simp), Bool.false_eq_true, if_false]
    rw [svFwd_char_nil tl (fun y hy => h y (by simp [hy])) t n]
    rfl

theorem svFwd_end (n : Nat) (m : List Byte) : svFwd n 0 m = some 0 := by cases n <;> rfl

/-- moving forward over a text. -/
theorem svFwd_text (j : List Byte) : ∀ (cs : List Nat), Text cs → ∀ n,
    svFwd n (text cs).length (text cs ++ j) =
      if n < cs.length ∨ j ≠ [] ∨ cs = [] then some (text (cs.take n)).length else none
  | [], _, n => by rw [if_pos (by simp)]; simp [text, svFwd_end]
  | c :: cs, h, 0 => by rw [if_pos (by simp)]; simp [svFwd, text]
  | c :: cs, h, n + 1 => by
    have hc := h c (by simp)
    have hcs : Text cs := fun x hx => h x (by simp [hx])
    obtain ⟨b, tl, e, _, _, ht, _⟩ := enc_shape hc.1 hc.2
    have htl : ∀ x ∈ tl, lead x = false := fun x hx => (ht x hx).2
    have ih := svFwd_text j cs hcs n
    have hlen : (text (c :: cs)).length = tl.length + 1 + (text cs).length := by
      rw [text_cons, e]; simp; omega
    have htake : (text ((c :: cs).take (n + 1))).length = (text (cs.take n)).length + (tl.length + 1) := by
      rw [List.take_succ_cons, text_cons, e]; simp; omega
    rw [hlen, htake, text_cons, e, List.append_assoc, List.cons_append]
    cases cs with
    | nil =>
      cases j with
      | nil =>
        rw [if_neg (by simp)]
        simpa [text] using svFwd_char_nil tl htl b n
      | cons x X =>
        rw [if_pos (by simp)]
        have := svFwd_char tl htl b x X 0 n
        rw [svFwd_end] at this
        simpa [text] using this
    | cons d ds =>
      have hd := h d (by simp)
      obtain ⟨x, X, e', _, hl, _⟩ := enc_shape hd.1 hd.2
      have hx : text (d :: ds) ++ j = x :: (X ++ (text ds ++ j)) := by
        rw [text_cons, e']; simp
      rw [hx, svFwd_char tl htl, ← hx, hl, if_pos rfl, ih]
      by_cases hj : n < (d :: ds).length ∨ j ≠ [] ∨ (d :: ds) = []
      · rw [if_pos hj, if_pos (by simp at hj ⊢; omega)]; rfl
      · rw [if_neg hj, if_neg (by simp at hj ⊢; omega)]; rfl

/-- moving back over at most as many characters as there are. -/
theorem svBwd_eq : ∀ (before R : List Byte) (n : Nat), n ≤ before.countP lead →
    svBwd n (before ++ R) = some (bwd n before)
  | _, _, 0, _ => by simp [svBwd, bwd]
  | [], _, n + 1, h => by simp at h
  | b :: r, R, n + 1, h => by
    rw [List.cons_append, svBwd, svBwd_eq r R _ (by
      rw [List.countP_cons] at h
      cases hl : lead b <;> simp only [hl, Bool.false_eq_true, if_false, if_true] at h ⊢ <;> omega), bwd]
    rfl

theorem svBwd_none : ∀ (before : List Byte) (n : Nat), before.countP lead < n → svBwd n before = none
  | _, 0, h => by omega
  | [], n + 1, _ => rfl
  | b :: r, n + 1, h => by
    rw [svBwd, svBwd_none r _ (by
      rw [List.countP_cons] at h
      cases hl : lead b <;> simp only [hl, Bool.false_eq_true, if_false, if_true] at h ⊢ <;> omega)]
    rfl

/-- the character at an index of a text in an object. -/
theorem sv_drop (pre j : List Byte) (cs : List Nat) (i : Nat) :
    (pre ++ text cs ++ j).drop (pre.length + (text (cs.take i)).length) = text (cs.drop i) ++ j := by
  have : text cs = text (cs.take i) ++ text (cs.drop i) := by
    rw [text, text, text, ← List.flatMap_append, List.take_append_drop]
  rw [this, List.append_assoc, List.append_assoc, ← List.drop_drop, List.drop_left, List.drop_left]

theorem sv_take (pre j : List Byte) (cs : List Nat) (i : Nat) :
    (pre ++ text cs ++ j).take (pre.length + (text (cs.take i)).length) = pre ++ text (cs.take i) := by
  have : text cs = text (cs.take i) ++ text (cs.drop i) := by
    rw [text, text, text, ← List.flatMap_append, List.take_append_drop]
  rw [this, List.append_assoc, List.append_assoc, ← List.append_assoc, ← List.length_append, List.take_left]

theorem text_take_lt (cs : List Nat) (h : Text cs) {i : Nat} (hi : i < cs.length) :
    (text (cs.take i)).length + (enc cs[i]).length ≤ (text cs).length ∧ 0 < (enc cs[i]).length := by
  have hc := h cs[i] (List.getElem_mem _)
  obtain ⟨b, tl, e, _⟩ := enc_shape hc.1 hc.2
  have : text cs = text (cs.take i) ++ (enc cs[i] ++ text (cs.drop (i + 1))) := by
    rw [← text_cons, ← List.drop_eq_getElem_cons hi, text, text, text, ← List.flatMap_append, List.take_append_drop]
  constructor
  · rw [this]; simp
  · rw [e]; simp

/-- The effect of `advance` when it moves within the view or to its end. -/
theorem svAdvance_to (pre j : List Byte) (cs : List Nat) (h : Text cs) (i : Nat) (hi : i < cs.length) (c : Nat) (k : Int)
    (hk : -(i : Int) ≤ k) (hr : -2 ^ 63 < k) (hj : i + k < cs.length ∨ j ≠ []) :
    (∀ t : Nat, i + k = t → (ht : t < cs.length) →
      svAdvance (pre ++ text cs ++ j) (pre.length + (text cs).length)
        (some (pre.length + (text (cs.take i)).length), c) k =
        some (some (pre.length + (text (cs.take t)).length), (enc cs[t]).length)) ∧
    (cs.length ≤ i + k →
      svAdvance (pre ++ text cs ++ j) (pre.length + (text cs).length)
        (some (pre.length + (text (cs.take i)).length), c) k = some (none, c)) := by
  have hl := text_take_lt cs h hi
  have key : ∃ t : Nat, i + k = t ∧
      (if k = -2 ^ 63 then none
      else if k < 0 then
        if pre.length + (text (cs.take i)).length = pre.length + (text cs).length then
          some (pre.length + (text (cs.take i)).length)
        else (svBwd k.natAbs ((pre ++ text cs ++ j).take (pre.length + (text (cs.take i)).length)).reverse).map
          (pre.length + (text (cs.take i)).length - ·)
      else (svFwd k.toNat (pre.length + (text cs).length - (pre.length + (text (cs.take i)).length))
        ((pre ++ text cs ++ j).drop (pre.length + (text (cs.take i)).length))).map
          (pre.length + (text (cs.take i)).length + ·)) = some (pre.length + (text (cs.take t)).length) := by
    rw [if_neg (by omega)]
    by_cases h0 : 0 ≤ k
    · refine ⟨i + k.toNat, by omega, ?_⟩
      have e1 : (text cs).length = (text (cs.take i)).length + (text (cs.drop i)).length := by
        rw [← List.length_append, text, text, text, ← List.flatMap_append, List.take_append_drop]
      rw [if_neg (by omega), sv_drop,
        show pre.length + (text cs).length - (pre.length + (text (cs.take i)).length) = (text (cs.drop i)).length by omega,
        svFwd_text j _ (Text.drop h i), if_pos (by
          rcases hj with hj | hj
          · left; rw [List.length_drop]; omega
          · right; left; exact hj)]
      have : text (cs.take (i + k.toNat)) = text (cs.take i) ++ text ((cs.drop i).take k.toNat) := by
        rw [List.take_add]; simp [text]
      rw [this, List.length_append, Option.map_some]
      congr 1; omega
    · refine ⟨i - k.natAbs, by omega, ?_⟩
      have hcnt := countP_text (cs.take i) (Text.take h i)
      rw [List.length_take, Nat.min_eq_left (by omega)] at hcnt
      rw [if_pos (by omega), if_neg (by omega), sv_take, List.reverse_append,
        svBwd_eq _ _ _ (by rw [List.countP_reverse, hcnt]; omega), Option.map_some]
      have e := bwd_text (cs.take i).reverse (by simpa using Text.take h i) k.natAbs
      rw [List.reverse_reverse, List.take_reverse, List.reverse_reverse, List.length_take,
        Nat.min_eq_left (by omega), List.drop_take] at e
      rw [e]
      congr 1
      have : text (cs.take i) = text (cs.take (i - k.natAbs)) ++
          text ((cs.drop (i - k.natAbs)).take (i - (i - k.natAbs))) := by
        conv => lhs; rw [show i = (i - k.natAbs) + (i - (i - k.natAbs)) by omega, List.take_add]
        simp [text]
      rw [this, List.length_append]; omega
  obtain ⟨t, e, ho⟩ := key
  constructor
  · intro t' e' ht
    obtain rfl : t = t' := by omega
    have hl' := text_take_lt cs h ht
    rw [svAdvance]
    rw [ho, Option.bind_some, if_neg (by omega), sv_drop, List.drop_eq_getElem_cons ht, text_cons, List.append_assoc,
      chrSize_enc (h cs[t] (List.getElem_mem _))]
    rfl
  · intro ht
    rw [svAdvance]
    rw [ho, Option.bind_some, List.take_of_length_le (show cs.length ≤ t by omega), if_pos rfl]

/-- C158 (partial: moving back no further than the first character, and when moving to or past the end of
the view, some byte follows the view in its object). An iterator at the `i`-th character of a view,
advanced by `k` characters in either direction, stands at character `i + k` with the size of that
character; at or past the end of the view it is the end. Nothing is assumed about the bytes around the
view, so they are never taken for its characters. -/
theorem csview_advance_partial (pre j : List Byte) (cs : List Nat) (h : Text cs) (i : Nat) (hi : i < cs.length)
    (c : Nat) (k : Int) (hk : -(i : Int) ≤ k) (hr : -2 ^ 63 < k) (hj : i + k < cs.length ∨ j ≠ []) :
    ∃ it, svAdvance (pre ++ text cs ++ j) (pre.length + (text cs).length)
        (some (pre.length + (text (cs.take i)).length), c) k = some it ∧
      (∀ t : Nat, i + k = t → (ht : t < cs.length) →
        it = (some (pre.length + (text (cs.take t)).length), (enc cs[t]).length)) ∧
      (cs.length ≤ i + k → it.1 = none) := by
  obtain ⟨h1, h2⟩ := svAdvance_to pre j cs h i hi c k hk hr hj
  by_cases hc : cs.length ≤ i + k
  · exact ⟨_, h2 hc, fun t e ht => absurd ht (by omega), fun _ => rfl⟩
  · have ht : (i + k).toNat < cs.length := by omega
    refine ⟨_, h1 (i + k).toNat (by omega) ht, fun t e ht => ?_, fun h => absurd h hc⟩
    have : (i + k).toNat = t := by omega
    subst this; rfl

/-- Two back, from the euro sign to the first letter of a view in the middle of an object; three
forward, to the end. -/
example : svAdvance ([0xA9] ++ text [0x61, 0xE9, 0x20AC] ++ [0xBF]) 7 (some 4, 3) (-2) = some (some 1, 1) ∧
    svAdvance ([0xA9] ++ text [0x61, 0xE9, 0x20AC] ++ [0xBF]) 7 (some 1, 1) 3 = some (none, 1) :=
  ⟨(svAdvance_to [0xA9] [0xBF] [0x61, 0xE9, 0x20AC] (by decide) 2 (by decide) 3 (-2) (by decide) (by decide)
      (by decide)).1 0 (by decide) (by decide),
   (svAdvance_to [0xA9] [0xBF] [0x61, 0xE9, 0x20AC] (by decide) 0 (by decide) 1 3 (by decide) (by decide)
      (by decide)).2 (by decide)⟩

/-- C158, refutation: when the view reaches to the end of its object, as one of a character array
without a terminator does, moving an iterator to the end always reads outside of the object. -/
theorem csview_advance_reads_past_end (pre : List Byte) (cs : List Nat) (h : Text cs) (i : Nat) (hi : i < cs.length)
    (c : Nat) (k : Int) (hk : (cs.length : Int) ≤ i + k) :
    svAdvance (pre ++ text cs) (pre.length + (text cs).length)
      (some (pre.length + (text (cs.take i)).length), c) k = none := by
  have e1 : (text cs).length = (text (cs.take i)).length + (text (cs.drop i)).length := by
    rw [← List.length_append, text, text, text, ← List.flatMap_append, List.take_append_drop]
  have hd := sv_drop pre [] cs i
  simp only [List.append_nil] at hd
  rw [svAdvance]
  rw [if_neg (by omega), if_neg (by omega), hd,
    show pre.length + (text cs).length - (pre.length + (text (cs.take i)).length) = (text (cs.drop i)).length by omega]
  have := svFwd_text [] (cs.drop i) (Text.drop h i) k.toNat
  rw [List.append_nil, if_neg (by
    rw [List.length_drop]
    rintro (h' | h' | h')
    · omega
    · exact h' rfl
    · rw [List.drop_eq_nil_iff] at h'; omega)] at this
  rw [this]; rfl

/-- C158, refutation: moving back past the first character of a view that begins its object leaves the
object; in a view that does not, it goes on into the bytes before the view. -/
theorem csview_advance_before_start (j : List Byte) (cs : List Nat) (h : Text cs) (i : Nat) (hi : i < cs.length)
    (c : Nat) (k : Int) (hk : k < -(i : Int)) :
    svAdvance (text cs ++ j) (text cs).length (some (text (cs.take i)).length, c) k = none ∧
    svAdvance [0x61, 0x62, 0x63, 0#8] 3 (some 2, 1) (-2) = some (some 0, 1) := by
  refine ⟨?_, by decide⟩
  have hl := text_take_lt cs h hi
  have hcnt := countP_text (cs.take i) (Text.take h i)
  rw [List.length_take, Nat.min_eq_left (by omega)] at hcnt
  have ht := sv_take [] j cs i
  simp only [List.nil_append, List.length_nil, Nat.zero_add] at ht
  rw [svAdvance]
  split
  · rfl
  · rw [if_pos (by omega), if_neg (by omega), ht, svBwd_none _ _ (by rw [List.countP_reverse, hcnt]; omega)]
    rfl

end Verif.Zstr
