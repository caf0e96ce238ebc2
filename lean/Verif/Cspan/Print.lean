import Verif.Cspan.Props
/-
C154: `cspan_print` (/repo/include/stc/cspan.h 278-305, 371-385).
-/
namespace Verif.Cspan
open Spec

abbrev Text := List Char

/-- The argument `brackets`: two characters, and a third one or the end of the string. -/
structure Brackets where
  opening : Char
  closing : Char
  comma : Option Char

/-- `while (n <= r && pos[r - n] == 0) ++n;` (cspan.h 376) with `k` positions left; `none` outside of the array. -/
def zeros (pos : List Int) : Nat → Option Nat
  | 0 => some 0
  | k + 1 => (pos[k]?).bind fun x => if x = 0 then (zeros pos k).map (· + 1) else some 0

/-- The loop over `j` (cspan.h 379), with `k` = `r + 1`. -/
def ends (pos shape : List Int) : Nat → Option Nat
  | 0 => some 0
  | k + 1 => (pos[k]?).bind fun x => (shape[k]?).bind fun n => (i32 (x + 1)).bind fun y =>
      if y = n then (ends pos shape k).map (· + 1) else some 0

/-- A row of `result` as a string, `none` if it does not fit into its 16 characters (cspan.h 293, 374). -/
def row (t : Text) : Option Text := if t.length < 16 then some t else none

/-- `_cspan_print_assist` (cspan.h 371-385): `result[0]` and `result[1]`. -/
def assist (b : Brackets) (pos shape : List Int) (rank : Nat) : Option (Text × Text) :=
  (zeros pos rank).bind fun n => (ends pos shape rank).bind fun j =>
    (row (if n = 0 then [] else List.replicate (rank - n) ' ' ++ List.replicate n b.opening)).bind fun r0 =>
      (row (List.replicate j b.closing ++
          (if j < rank then b.comma.toList else []) ++
          List.replicate ((if j > 0 then 1 else 0) + (if j > 1 ∧ j < rank then 1 else 0)) '\n')).map fun r1 => (r0, r1)

/-- `%*s`: at the right of a field of `w` characters. -/
def pad (w : Nat) (t : Text) : Text := List.replicate (w - t.length) ' ' ++ t

/-- The first loop (cspan.h 294-297): the widest text. `txt` is what the format makes of the element at an address. -/
def widest (txt : Int → Option Text) : List (List Int × Int) → Nat → Option Nat
  | [], m => some m
  | (_, a) :: l, m => (txt a).bind fun t => widest txt l (if t.length > m then t.length else m)

/-- One round of the second loop (cspan.h 299-302); `none` if the text does not fit into `_fld[128]`. -/
def printItem (b : Brackets) (txt : Int → Option Text) (shape : List Int) (max : Nat) (it : List Int × Int) : Option Text :=
  (assist b it.1 shape shape.length).bind fun r =>
    (it.1[shape.length - 1]?).bind fun x => (txt it.2).bind fun t =>
      if t.length < 128 then some (r.1 ++ pad (max + (if x > 0 then 1 else 0)) t ++ r.2) else none

/-- The second loop. -/
def printLoop (b : Brackets) (txt : Int → Option Text) (shape : List Int) (max : Nat) : List (List Int × Int) → Option Text
  | [] => some []
  | it :: l => (printItem b txt shape max it).bind fun t => (printLoop b txt shape max l).map (t ++ ·)

/-- `cspan_print` (cspan.h 288-303): what is written. Both loops visit what `c_each` visits; `f` bounds it. -/
def print (b : Brackets) (txt : Int → Option Text) (s : Span) (f : Nat) : Option Text :=
  (each s f).bind fun l => (widest txt l 0).bind fun m => printLoop b txt s.shape m l

/-! ### specification -/

namespace Spec

/-- The texts with `sep` between them. -/
def joinWith (sep : Text) : List Text → Text
  | [] => []
  | [x] => x
  | x :: y :: l => x ++ sep ++ joinWith sep (y :: l)

/-- Between the parts of a level whose parts have rank `j`: a comma if there is one, and a blank between elements,
a new line between rows, an empty line between blocks; the lines are indented by the number of brackets left open. -/
def between (rank : Nat) (comma : Option Char) (j : Nat) : Text :=
  comma.toList ++
    (if j = 0 then [' '] else if j = 1 then '\n' :: List.replicate (rank - 1) ' ' else '\n' :: '\n' :: List.replicate (rank - j) ' ')

/-- Nested lists in brackets. -/
def render (rank : Nat) (b : Brackets) : (List Nat → Text) → List Nat → Text
  | cell, [] => cell []
  | cell, n :: ns =>
    [b.opening] ++ joinWith (between rank b.comma ns.length) ((List.range n).map fun i => render rank b (fun q => cell (i :: q)) ns) ++ [b.closing]

/-- The length of the longest text of the span. -/
def Widest (m : Nat) (ns : List Nat) (cell : List Nat → Text) : Prop :=
  (∀ p, InRange p ns → (cell p).length ≤ m) ∧ ((∃ p, InRange p ns ∧ (cell p).length = m))

/-- A text at the right of `m` characters. -/
def rightAligned (m : Nat) (t : Text) : Text := List.replicate (m - t.length) ' ' ++ t

end Spec
open Spec

/-! ### proofs -/

/-- Trailing zeros. -/
def tz (l : List Nat) : Nat := (l.reverse.takeWhile (· == 0)).length
/-- Trailing last positions. -/
def te (l ns : List Nat) : Nat := ((l.zip ns).reverse.takeWhile fun p => p.1 + 1 == p.2).length

theorem tz_snoc (l : List Nat) (i : Nat) : tz (l ++ [i]) = if i = 0 then tz l + 1 else 0 := by
  unfold tz
  rw [List.reverse_append, List.reverse_singleton, List.singleton_append, List.takeWhile_cons]
  by_cases h : i = 0 <;> simp [h]

theorem te_snoc {l ns : List Nat} (h : l.length = ns.length) (i n : Nat) : te (l ++ [i]) (ns ++ [n]) = if i + 1 = n then te l ns + 1 else 0 := by
  unfold te
  rw [List.zip_append h, List.reverse_append, List.zip_cons_cons, List.zip_nil_left, List.reverse_singleton, List.singleton_append, List.takeWhile_cons]
  by_cases h : i + 1 = n <;> simp [h]

theorem tz_le (l : List Nat) : tz l ≤ l.length := by
  unfold tz; exact (List.takeWhile_prefix _).length_le.trans (by simp)

theorem te_le (l ns : List Nat) : te l ns ≤ ns.length := by
  unfold te; exact (List.takeWhile_prefix _).length_le.trans (by simp)

theorem zeros_spec (p : List Nat) : ∀ k, k ≤ p.length → zeros (ints p) k = some (tz (p.take k))
  | 0, _ => by simp [zeros, tz]
  | k + 1, h => by
    have hk : k < p.length := h
    have e : p.take (k + 1) = p.take k ++ [p[k]] := (List.take_append_getElem hk).symm
    rw [zeros, e, tz_snoc, zeros_spec p k (by omega)]
    have : (ints p)[k]? = some (p[k] : Int) := by simp [ints, hk]
    rw [this, Option.bind_some]
    by_cases h0 : p[k] = 0
    · rw [if_pos h0, if_pos (by omega)]; rfl
    · rw [if_neg h0, if_neg (by omega)]

theorem ends_spec {p ns : List Nat} (hl : p.length = ns.length) (hr : ∀ x ∈ p, x < 2147483647) : ∀ k, k ≤ p.length →
    ends (ints p) (ints ns) k = some (te (p.take k) (ns.take k))
  | 0, _ => by simp [ends, te]
  | k + 1, h => by
    have hk : k < p.length := h
    have hk' : k < ns.length := by omega
    have e : p.take (k + 1) = p.take k ++ [p[k]] := (List.take_append_getElem hk).symm
    have e' : ns.take (k + 1) = ns.take k ++ [ns[k]] := (List.take_append_getElem hk').symm
    rw [ends, e, e', te_snoc (by simp; omega), ends_spec hl hr k (by omega)]
    have h1 : (ints p)[k]? = some (p[k] : Int) := by simp [ints, hk]
    have h2 : (ints ns)[k]? = some (ns[k] : Int) := by simp [ints, hk']
    have hx := hr p[k] (List.getElem_mem hk)
    have h3 : i32 ((p[k] : Int) + 1) = some ((p[k] : Int) + 1) := if_pos ⟨by omega, by omega⟩
    rw [h1, h2, Option.bind_some, Option.bind_some, h3, Option.bind_some]
    by_cases h0 : p[k] + 1 = ns[k]
    · rw [if_pos h0, if_pos (by omega)]; rfl
    · rw [if_neg h0, if_neg (by omega)]

/-- What comes before an element with `z` trailing zeros. -/
def front' (b : Brackets) (R z : Nat) : Text := if z = 0 then [] else List.replicate (R - z) ' ' ++ List.replicate z b.opening
/-- What comes after it without the brackets. -/
def tail' (b : Brackets) (R j : Nat) : Text :=
  (if j < R then b.comma.toList else []) ++ List.replicate ((if j > 0 then 1 else 0) + (if j > 1 ∧ j < R then 1 else 0)) '\n'

def item (b : Brackets) (R m z e : Nat) (t : Text) : Text :=
  front' b R z ++ pad (m + if z = 0 then 1 else 0) t ++ (List.replicate e b.closing ++ tail' b R e)

theorem printItem_spec {b : Brackets} {txt : Int → Option Text} {p ns : List Nat} {m : Nat} {a : Int} {t : Text} (hl : p.length = ns.length)
    (hr : ∀ x ∈ p, x < 2147483647) (hR : 0 < ns.length) (hR8 : ns.length ≤ 8) (ht : txt a = some t) (h128 : t.length < 128) :
    printItem b txt (ints ns) m (ints p, a) = some (item b ns.length m (tz p) (te p ns) t) := by
  have hlen : (ints ns).length = ns.length := by simp [ints]
  have hz := zeros_spec p ns.length (by omega)
  have he := ends_spec hl hr ns.length (by omega)
  rw [List.take_of_length_le (by omega)] at hz he
  rw [List.take_of_length_le (by omega)] at he
  have hzl := tz_le p
  have hel := te_le p ns
  obtain ⟨p', x, rfl⟩ : ∃ p' x, p = p' ++ [x] := by
    rcases List.eq_nil_or_concat p with h | ⟨p', x, h⟩
    · subst h; simp at hl; omega
    · exact ⟨p', x, by simpa using h⟩
  have hx : (ints (p' ++ [x]))[ns.length - 1]? = some (x : Int) := by
    have : ns.length - 1 = p'.length := by simp at hl; omega
    rw [this]; simp [ints]
  have c : (if (x : Int) > 0 then 1 else 0) = (if tz (p' ++ [x]) = 0 then 1 else 0 : Nat) := by
    rw [tz_snoc]
    by_cases h : x = 0
    · subst h; simp
    · rw [if_pos (show (x : Int) > 0 by omega)]; simp [h]
  have hrow0 : row (if tz (p' ++ [x]) = 0 then [] else List.replicate (ns.length - tz (p' ++ [x])) ' ' ++ List.replicate (tz (p' ++ [x])) b.opening) =
      some (front' b ns.length (tz (p' ++ [x]))) := by
    refine if_pos ?_
    split
    · simp
    · simp; omega
  have hrow1 : row (List.replicate (te (p' ++ [x]) ns) b.closing ++ (if te (p' ++ [x]) ns < ns.length then b.comma.toList else []) ++
      List.replicate ((if te (p' ++ [x]) ns > 0 then 1 else 0) + (if te (p' ++ [x]) ns > 1 ∧ te (p' ++ [x]) ns < ns.length then 1 else 0)) '\n') =
      some (List.replicate (te (p' ++ [x]) ns) b.closing ++ tail' b ns.length (te (p' ++ [x]) ns)) := by
    rw [List.append_assoc]
    refine if_pos ?_
    have : b.comma.toList.length ≤ 1 := by cases b.comma <;> simp
    simp only [List.length_append, List.length_replicate]
    split <;> split <;> split <;> simp <;> omega
  unfold printItem assist
  rw [hlen]
  simp only [hz, he, Option.bind_some, hrow0, hrow1, Option.map_some, hx, ht, h128, if_true, c, item]

theorem printLoop_spec {b : Brackets} {txt : Int → Option Text} {shape : List Int} {m : Nat} {g : List Nat → List Int × Int} {h : List Nat → Text} :
    ∀ (l : List (List Nat)), (∀ p ∈ l, printItem b txt shape m (g p) = some (h p)) → printLoop b txt shape m (l.map g) = some (l.flatMap h)
  | [], _ => rfl
  | p :: l, hl => by
    rw [List.map_cons, printLoop, hl p (by simp), Option.bind_some, printLoop_spec l (fun q hq => hl q (by simp [hq])), Option.map_some, List.flatMap_cons]

theorem widest_spec {txt : Int → Option Text} {g : List Nat → List Int × Int} {cell : List Nat → Text} : ∀ (l : List (List Nat)) (m : Nat),
    (∀ p ∈ l, txt (g p).2 = some (cell p)) → ∃ m', widest txt (l.map g) m = some m' ∧ m ≤ m' ∧ (∀ p ∈ l, (cell p).length ≤ m') ∧
      (m' = m ∨ ∃ p ∈ l, (cell p).length = m')
  | [], m, _ => ⟨m, rfl, Nat.le_refl _, by simp, .inl rfl⟩
  | p :: l, m, h => by
    obtain ⟨m', h1, h2, h3, h4⟩ := widest_spec l (if (cell p).length > m then (cell p).length else m) (fun q hq => h q (by simp [hq]))
    refine ⟨m', ?_, ?_, ?_, ?_⟩
    · rw [List.map_cons, widest, h p (by simp), Option.bind_some]; exact h1
    · split at h2 <;> omega
    · intro q hq
      rcases List.mem_cons.1 hq with rfl | hq
      · split at h2 <;> omega
      · exact h3 q hq
    · rcases h4 with h4 | ⟨q, hq, h4⟩
      · by_cases hc : (cell p).length > m
        · rw [if_pos hc] at h4; exact .inr ⟨p, by simp, h4.symm⟩
        · rw [if_neg hc] at h4; exact .inl h4
      · exact .inr ⟨q, by simp [hq], h4⟩

theorem join_chain (F A B C : Text) (r : Nat → Text) (n : Nat) : ∀ (m a : Nat), a + (m + 1) = n →
    (List.range' a (m + 1)).flatMap (fun i => (if i = 0 then F else A) ++ r i ++ (if i + 1 = n then C else B)) =
      (if a = 0 then F else A) ++ joinWith (B ++ A) ((List.range' a (m + 1)).map r) ++ C
  | 0, a, h => by simp [List.range', joinWith, show a + 1 = n from h]
  | m + 1, a, h => by
    have ih := join_chain F A B C r n m (a + 1) (by omega)
    rw [List.range'_succ, List.flatMap_cons, ih, if_neg (show ¬ a + 1 = n by omega), if_neg (show ¬ a + 1 = 0 by omega)]
    have e : ∀ (x : Text) (l : List Text), l ≠ [] → joinWith (B ++ A) (x :: l) = x ++ (B ++ A) ++ joinWith (B ++ A) l := by
      intro x l hl; cases l with
      | nil => exact absurd rfl hl
      | cons y l => rfl
    rw [List.map_cons, e _ _ (by simp [List.range'_succ])]
    simp only [List.append_assoc]

/-- What comes before a part of rank `k`. -/
def lead (b : Brackets) (R k z : Nat) : Text :=
  if k = 0 ∧ z = 0 then [' '] else List.replicate (R - k - z) ' ' ++ List.replicate z b.opening

theorem between_eq {b : Brackets} {R j : Nat} (hj : j < R) : between R b.comma j = tail' b R j ++ lead b R j 0 := by
  unfold between tail' lead
  rw [if_pos hj, List.append_assoc]
  congr 1
  by_cases h0 : j = 0
  · subst h0; simp
  · by_cases h1 : j = 1
    · subst h1; simp
    · have h2 : j > 1 := by omega
      simp [h0, h1, h2, hj, show j > 0 by omega]

theorem pad_succ {m : Nat} {t : Text} (h : t.length ≤ m) : pad (m + 1) t = ' ' :: rightAligned m t := by
  unfold pad rightAligned
  rw [show m + 1 - t.length = (m - t.length) + 1 by omega, List.replicate_succ, List.cons_append]

theorem emit_spec {b : Brackets} {m : Nat} {cell : List Nat → Text} : ∀ (ns pre P : List Nat), pre.length = P.length → 0 < P.length + ns.length →
    (∀ n ∈ ns, 0 < n) → (∀ q ∈ tuples ns, (cell (pre ++ q)).length ≤ m) →
    (tuples ns).flatMap (fun q => item b (P.length + ns.length) m (tz (pre ++ q)) (te (pre ++ q) (P ++ ns)) (cell (pre ++ q))) =
      lead b (P.length + ns.length) ns.length (tz pre) ++ render (P.length + ns.length) b (fun q => rightAligned m (cell (pre ++ q))) ns ++
        (List.replicate (te pre P) b.closing ++ tail' b (P.length + ns.length) (ns.length + te pre P))
  | [], pre, P, hl, hR, _, hm => by
    have hm := hm [] (by simp [tuples])
    simp only [tuples, List.flatMap_cons, List.flatMap_nil, List.append_nil, List.length_nil, Nat.zero_add, Nat.add_zero, render] at hm ⊢
    unfold item front' lead
    by_cases h : tz pre = 0
    · rw [if_pos h, if_pos h, if_pos ⟨rfl, h⟩, pad_succ hm]; simp
    · rw [if_neg h, if_neg h, if_neg (fun c => h c.2)]; rfl
  | n :: ns, pre, P, hl, hR, hp, hm => by
    have hn : 0 < n := hp n (by simp)
    obtain ⟨k, rfl⟩ : ∃ k, n = k + 1 := ⟨n - 1, by omega⟩
    have eR : P.length + ((k + 1) :: ns).length = (P ++ [k + 1]).length + ns.length := by simp; omega
    have step : ∀ i ∈ List.range (k + 1), ((tuples ns).map (i :: ·)).flatMap (fun q => item b (P.length + ((k + 1) :: ns).length) m (tz (pre ++ q)) (te (pre ++ q) (P ++ (k + 1) :: ns)) (cell (pre ++ q))) =
        (if i = 0 then lead b (P.length + ((k + 1) :: ns).length) ((k + 1) :: ns).length (tz pre) ++ [b.opening] else lead b (P.length + ((k + 1) :: ns).length) ns.length 0) ++
          render (P.length + ((k + 1) :: ns).length) b (fun q => rightAligned m (cell (pre ++ i :: q))) ns ++
          (if i + 1 = k + 1 then [b.closing] ++ (List.replicate (te pre P) b.closing ++ tail' b (P.length + ((k + 1) :: ns).length) (((k + 1) :: ns).length + te pre P))
            else tail' b (P.length + ((k + 1) :: ns).length) ns.length) := by
      intro i hi
      have ih := emit_spec (b := b) (m := m) (cell := cell) ns (pre ++ [i]) (P ++ [k + 1]) (by simp [hl]) (by simp) (fun n hn => hp n (by simp [hn])) (by
        intro q hq
        rw [List.append_assoc, List.singleton_append]
        exact hm (i :: q) (by
          simp only [tuples, List.mem_flatMap, List.mem_map]
          exact ⟨i, hi, q, hq, rfl⟩))
      rw [← eR] at ih
      rw [List.flatMap_map]
      simp only [List.append_assoc, List.singleton_append] at ih
      rw [ih, tz_snoc, te_snoc hl]
      have c1 : lead b (P.length + ((k + 1) :: ns).length) ns.length (if i = 0 then tz pre + 1 else 0) =
          (if i = 0 then lead b (P.length + ((k + 1) :: ns).length) ((k + 1) :: ns).length (tz pre) ++ [b.opening] else lead b (P.length + ((k + 1) :: ns).length) ns.length 0) := by
        by_cases h : i = 0
        · rw [if_pos h, if_pos h]
          unfold lead
          rw [if_neg (by omega), if_neg (by simp), List.append_assoc]
          congr 1
          · congr 1; simp; omega
          · rw [List.replicate_succ']
        · rw [if_neg h, if_neg h]
      rw [c1]
      simp only [List.append_assoc]
      congr 2
      by_cases h : i + 1 = k + 1
      · rw [if_pos h, if_pos h, List.replicate_succ]
        simp [Nat.add_assoc, Nat.add_comm 1]
      · rw [if_neg h, if_neg h]; simp
    rw [tuples, List.flatMap_assoc]
    rw [List.flatMap_congr step, List.range_eq_range', join_chain _ _ _ _ _ _ k 0 (by omega), if_pos rfl, render, ← List.range_eq_range',
      between_eq (show ns.length < P.length + ((k + 1) :: ns).length by simp; omega)]
    simp only [List.append_assoc]

/-- C154 (part). Printing a span of rank at most 8 writes its elements as nested bracketed lists: rows on lines of their
own, blocks separated by empty lines, rows indented below the brackets, and all elements right-aligned in columns as
wide as the longest text. Missing: an element whose text has 128 characters or more (`cspan_print_overflow`), and an
extent of 0 (`span_each_zero_extent_visits`). -/
theorem cspan_print_partial {b : Brackets} {s : Span} {ns : List Nat} (h : Shape s ns) (hp : ∀ n ∈ ns, 0 < n) (hd : s.data ≠ none) (hr : ns.length ≤ 8)
    {txt : Int → Option Text} {cell : List Nat → Text} (ht : ∀ p, InRange p ns → txt (addr s p) = some (cell p) ∧ (cell p).length < 128) :
    ∃ m, Widest m ns cell ∧ ∀ f, ns.prod ≤ f → print b txt s f = some (render ns.length b (fun p => rightAligned m (cell p)) ns ++ ['\n']) := by
  obtain ⟨d, hd⟩ := Option.ne_none_iff_exists'.1 hd
  obtain ⟨m, w1, w2, w3, w4⟩ := widest_spec (txt := txt) (g := fun q => (ints q, addr s q)) (cell := cell) (tuples ns) 0
    (fun p hq => (ht p (tuples_inRange.1 hq)).1)
  refine ⟨m, ⟨fun p hq => w3 p (tuples_inRange.2 hq), ?_⟩, fun f hf => ?_⟩
  · rcases w4 with w4 | ⟨p, hq, w4⟩
    · obtain ⟨L, hL⟩ := tuples_head hp
      have hmem : ∃ p, p ∈ tuples ns := ⟨_, by rw [hL]; exact List.mem_cons_self ..⟩
      obtain ⟨p, hq⟩ := hmem
      exact ⟨p, tuples_inRange.1 hq, by have := w3 p hq; omega⟩
    · exact ⟨p, tuples_inRange.1 hq, w4⟩
  · rw [print, each_spec h hp hd hf, Option.bind_some, w1, Option.bind_some, h.shape,
      printLoop_spec (h := fun q => item b ns.length m (tz q) (te q ns) (cell q)) (tuples ns) (by
        intro p hq
        have hir := tuples_inRange.1 hq
        have hlen : p.length = ns.length := List.Forall₂.length_eq hir
        refine printItem_spec hlen ?_ h.pos hr (ht p hir).1 (ht p hir).2
        intro x hx
        obtain ⟨i, hi, rfl⟩ := List.mem_iff_getElem.1 hx
        have h1 := List.Forall₂.get hir hi (by omega)
        have h2 := h.fits _ (List.getElem_mem (show i < ns.length by omega))
        simp only [List.get_eq_getElem] at h1
        omega)]
    have := emit_spec (b := b) (m := m) (cell := cell) ns [] [] rfl (by simpa using h.pos) hp (by simpa using w3)
    simp only [List.nil_append, List.length_nil, Nat.zero_add] at this
    rw [this]
    have e1 : lead b ns.length ns.length (tz []) = [] := by
      have := h.pos
      simp [lead, tz, show ns ≠ [] from fun e => by rw [e] at this; simp at this]
    have e2 : te [] [] = 0 := rfl
    have e3 : tail' b ns.length (ns.length + 0) = ['\n'] := by
      have := h.pos
      simp only [Nat.add_zero]
      simp [tail', this]
    rw [e1, e2, e3]; simp

/-! ### examples -/

def digits (n : Int) : Option Text := some (toString n).toList

/-- The hypotheses are met: a 2×2×3 span. -/
example : (print ⟨'[', ']', none⟩ digits ⟨some 7, [2, 2, 3], [6, 3, 1]⟩ 12).map String.ofList =
    some "[[[ 7  8  9]\n  [10 11 12]]\n\n [[13 14 15]\n  [16 17 18]]]\n" := by decide +kernel
example : Shape ⟨some 7, [2, 2, 3], [6, 3, 1]⟩ [2, 2, 3] := ⟨rfl, rfl, by decide, by decide, by decide⟩
example : (print ⟨'{', '}', some ','⟩ digits ⟨some 0, [2, 3], [1, 2]⟩ 6).map String.ofList =
    some "{{0, 2, 4},\n {1, 3, 5}}\n" := by decide +kernel

/-- C154 is false for texts of 128 characters and more, such as "%f" makes of 1e300: they are written beyond the end of
a buffer. -/
theorem cspan_print_overflow {b : Brackets} {t : Text} (ht : 128 ≤ t.length) (f : Nat) : print b (fun _ => some t) ⟨some 0, [1], [1]⟩ (f + 1) = none := by
  have hs : Shape ⟨some 0, [1], [1]⟩ [1] := ⟨rfl, rfl, by decide, by decide, by decide⟩
  rw [print, each_spec hs (by decide) rfl (f := f + 1) (by simp)]
  show ((widest (fun _ => some t) [([0], 0)] 0).bind fun m => printLoop b (fun _ => some t) [1] m [([0], 0)]) = none
  rw [widest, Option.bind_some, widest, Option.bind_some, printLoop, printItem]
  have : ¬ t.length < 128 := by omega
  simp [assist, zeros, ends, i32, row, this]

end Verif.Cspan
