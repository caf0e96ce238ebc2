import Verif.Cspan.Spec
import Mathlib.Tactic.Common
import Mathlib.Tactic.Ring
import Mathlib.Algebra.BigOperators.Group.List.Basic
import Mathlib.Data.List.Induction
/- Index arithmetic, layouts and transposition. -/
namespace Verif.Cspan
open Spec

theorem isz_ok {x : Int} (h1 : -9223372036854775808 ≤ x) (h2 : x < 9223372036854775808) : isz x = some x :=
  if_pos ⟨h1, h2⟩

theorem i32_ok {x : Int} (h1 : -2147483648 ≤ x) (h2 : x < 2147483648) : i32 x = some x := if_pos ⟨h1, h2⟩

theorem i32_nat {x : Nat} (h : x < 2147483648) : i32 (x : Int) = some (x : Int) := i32_ok (by omega) (by omega)

theorem toI32_ok {x : Int} (h1 : -2147483648 ≤ x) (h2 : x < 2147483648) : toI32 x = x := by
  unfold toI32; omega

theorem uless_iff {a n : Int} (h1 : -9223372036854775808 ≤ a) (h2 : a < 9223372036854775808) (h3 : 0 ≤ n)
    (h4 : n < 9223372036854775808) : uless a n = true ↔ 0 ≤ a ∧ a < n := by
  unfold uless
  rw [decide_eq_true_iff]
  omega

/-! ### dot and extent -/

@[simp] theorem ints_length (l : List Nat) : (ints l).length = l.length := by simp [ints]
@[simp] theorem ints_nil : ints [] = [] := rfl
@[simp] theorem ints_cons (n : Nat) (l : List Nat) : ints (n :: l) = (n : Int) :: ints l := rfl
theorem ints_append (a b : List Nat) : ints (a ++ b) = ints a ++ ints b := by simp [ints]
theorem ints_get (l : List Nat) (i : Nat) : (ints l)[i]? = (l[i]?).map Int.ofNat := by simp [ints]
theorem ints_inj {a b : List Nat} (h : ints a = ints b) : a = b :=
  List.map_injective_iff.2 (fun _ _ h => Int.ofNat.inj h) h

@[simp] theorem dot_nil (t : List Int) : dot [] t = 0 := by simp [dot]
@[simp] theorem dot_nil' (i : List Nat) : dot i [] = 0 := by cases i <;> simp [dot]
@[simp] theorem dot_cons (i : Nat) (is : List Nat) (t : Int) (ts : List Int) :
    dot (i :: is) (t :: ts) = i * t + dot is ts := rfl
@[simp] theorem extent_nil (t : List Int) : extent [] t = 0 := by simp [extent]
@[simp] theorem extent_cons (n : Nat) (ns : List Nat) (t : Int) (ts : List Int) :
    extent (n :: ns) (t :: ts) = n * t.natAbs + extent ns ts := rfl

theorem dot_append {a : List Nat} {s : List Int} (h : a.length = s.length) (b : List Nat) (t : List Int) :
    dot (a ++ b) (s ++ t) = dot a s + dot b t := by
  induction a generalizing s with
  | nil => cases s with
    | nil => simp
    | cons => simp at h
  | cons x a ih => cases s with
    | nil => simp at h
    | cons y s =>
      simp only [List.cons_append, dot_cons]
      rw [ih (by simpa using h)]; ring

theorem extent_append {a : List Nat} {s : List Int} (h : a.length = s.length) (b : List Nat) (t : List Int) :
    extent (a ++ b) (s ++ t) = extent a s + extent b t := by
  induction a generalizing s with
  | nil => cases s with
    | nil => simp
    | cons => simp at h
  | cons x a ih => cases s with
    | nil => simp at h
    | cons y s =>
      simp only [List.cons_append, extent_cons]
      rw [ih (by simpa using h)]; ring

theorem natAbs_mul_le {i n : Nat} (h : i ≤ n) (t : Int) : ((i : Int) * t).natAbs ≤ n * t.natAbs := by
  rw [Int.natAbs_mul, Int.natAbs_natCast]
  exact Nat.mul_le_mul_right _ h

/-- Tuples of digits that do not exceed the extents. -/
def Le (idx ns : List Nat) : Prop := List.Forall₂ (· ≤ ·) idx ns

theorem inRange_le {idx ns : List Nat} (h : InRange idx ns) : Le idx ns := List.Forall₂.imp (fun _ _ => Nat.le_of_lt) h

theorem dot_bound {idx ns : List Nat} (h : Le idx ns) (ts : List Int) : (dot idx ts).natAbs ≤ extent ns ts := by
  induction h generalizing ts with
  | nil => simp
  | cons h1 _ ih =>
    cases ts with
    | nil => simp
    | cons t ts =>
      have h2 := natAbs_mul_le h1 t
      have h3 := ih ts
      simp only [dot_cons, extent_cons]
      omega

/-! ### index -/

theorem get_take_succ {β : Type} {l : List β} {r : Nat} (h : r < l.length) : l.take (r + 1) = l.take r ++ [l[r]] := by
  rw [List.take_succ_eq_append_getElem h]

theorem indexLoop_some {ns idx : List Nat} {ts : List Int} (hin : InRange idx ns) (ht : ts.length = ns.length)
    (hf : ∀ n ∈ ns, n < 2147483648) {r : Nat} (hr : r ≤ ns.length) {off : Int}
    (hb : off.natAbs + extent (ns.take r) (ts.take r) < 4611686018427387904) :
    indexLoop (ints ns) ts (ints idx) r off = some (off + dot (idx.take r) (ts.take r)) := by
  have hl : idx.length = ns.length := hin.length_eq
  induction r generalizing off with
  | zero => simp [indexLoop]
  | succ r ih =>
    have h1 : r < ns.length := hr
    have hlt : idx[r]'(by omega) < ns[r] := by
      have := (List.forall₂_iff_get.1 hin).2 r (by omega) h1
      simpa using this
    have hn := hf ns[r] (List.getElem_mem h1)
    rw [get_take_succ h1, get_take_succ (l := ts) (by omega), extent_append (by simp; omega)] at hb
    rw [get_take_succ (l := idx) (by omega), get_take_succ (l := ts) (by omega), dot_append (by simp; omega)]
    simp only [extent_cons, extent_nil, dot_cons, dot_nil, Int.add_zero, Nat.add_zero] at hb ⊢
    have h2 := natAbs_mul_le (Nat.le_of_lt hlt) (ts[r]'(by omega))
    have ha : (ints idx)[r]? = some ((idx[r]'(by omega) : Nat) : Int) := by
      rw [ints_get, List.getElem?_eq_getElem (by omega)]; rfl
    have hnn : (ints ns)[r]? = some ((ns[r] : Nat) : Int) := by
      rw [ints_get, List.getElem?_eq_getElem h1]; rfl
    have hu : uless (idx[r]'(by omega) : Nat) (ns[r] : Nat) = true := by
      rw [uless_iff] <;> omega
    simp only [indexLoop, ha, hnn, Option.bind_eq_bind, Option.bind_some, guard_pos hu,
      List.getElem?_eq_getElem (show r < ts.length by omega)]
    rw [isz_ok (by omega) (by omega), Option.bind_some, isz_ok (by omega) (by omega), Option.bind_some,
      ih (by omega) (by omega)]
    congr 1; ring

theorem indexLoop_none {ns : List Nat} {ts args : List Int} (hf : ∀ n ∈ ns, n < 2147483648)
    (ha : ∀ a ∈ args, -9223372036854775808 ≤ a ∧ a < 9223372036854775808) {r : Nat} (hr : r ≤ ns.length)
    (hlen : args.length = ns.length) {k : Nat} (hk : k < r)
    (hbad : ¬ (0 ≤ args[k]'(by omega) ∧ args[k]'(by omega) < (ns[k]'(by omega) : Nat))) (off : Int) :
    indexLoop (ints ns) ts args r off = none := by
  induction r generalizing off with
  | zero => omega
  | succ r ih =>
    have h1 : r < ns.length := hr
    have hn := hf ns[r] (List.getElem_mem h1)
    have haa := ha (args[r]'(by omega)) (List.getElem_mem _)
    have hnn : (ints ns)[r]? = some ((ns[r] : Nat) : Int) := by
      rw [ints_get, List.getElem?_eq_getElem h1]; rfl
    simp only [indexLoop, hnn, Option.bind_eq_bind, Option.bind_some, List.getElem?_eq_getElem (show r < args.length by omega)]
    by_cases hu : uless (args[r]'(by omega)) (ns[r] : Nat) = true
    · rw [guard_pos hu]
      rw [uless_iff haa.1 haa.2 (by omega) (by omega)] at hu
      have hkr : k < r := by
        rcases Nat.lt_or_ge k r with h | h
        · exact h
        · have : k = r := by omega
          subst this
          exact absurd hu hbad
      simp only [Option.bind_some, Option.bind_eq_none_iff]
      intros
      exact ih (by omega) hkr hbad _
    · simp [guard, hu]

theorem index_some {s : Span} {ns idx : List Nat} (h : Shape s ns) (hin : InRange idx ns) :
    index s (ints idx) = some (dot idx s.stride) := by
  have hl : idx.length = ns.length := hin.length_eq
  have hrank := h.rank
  have := indexLoop_some (r := ns.length) (off := 0) hin h.rank h.fits (Nat.le_refl _) (by
    rw [List.take_length, List.take_of_length_le (by omega)]
    simpa using h.small)
  rw [List.take_of_length_le (by omega), List.take_of_length_le (by omega), Int.zero_add] at this
  unfold index
  rw [h.shape, ints_length, ints_length, guard_pos hl]
  exact this

/-! ### layouts -/

/-- Strides of a row-major block. -/
def rowStrides : List Nat → List Nat
  | [] => []
  | _ :: ns => ns.prod :: rowStrides ns

@[simp] theorem rowStrides_length (ns : List Nat) : (rowStrides ns).length = ns.length := by
  induction ns with
  | nil => rfl
  | cons n ns ih => simp [rowStrides, ih]

theorem dot_rowStrides (idx ns : List Nat) : dot idx (ints (rowStrides ns)) = rowRank idx ns := by
  induction ns generalizing idx with
  | nil => cases idx <;> simp [rowStrides, rowRank]
  | cons n ns ih =>
    cases idx with
    | nil => simp [rowRank]
    | cons i is => simp [rowStrides, rowRank, ih]

theorem prod_pos' {ns : List Nat} (h : ∀ n ∈ ns, 0 < n) : 0 < ns.prod := by
  induction ns with
  | nil => simp
  | cons n ns ih =>
    rw [List.prod_cons]
    exact Nat.mul_pos (h n (by simp)) (ih fun m hm => h m (by simp [hm]))

theorem rowRank_lt {idx ns : List Nat} (h : InRange idx ns) : rowRank idx ns < ns.prod := by
  induction h with
  | nil => simp [rowRank]
  | @cons i n is ns h1 _ ih =>
    simp only [rowRank, List.prod_cons]
    calc i * ns.prod + rowRank is ns < i * ns.prod + ns.prod := by omega
      _ = (i + 1) * ns.prod := by ring
      _ ≤ n * ns.prod := Nat.mul_le_mul_right _ h1

theorem rowRank_inj {idx jdx ns : List Nat} (hi : InRange idx ns) (hj : InRange jdx ns)
    (h : rowRank idx ns = rowRank jdx ns) : idx = jdx := by
  induction hi generalizing jdx with
  | nil => cases hj; rfl
  | @cons i n is ns h1 h2 ih =>
    cases hj with
    | @cons j _ js _ h3 h4 =>
      simp only [rowRank] at h
      have b1 := rowRank_lt h2
      have b2 := rowRank_lt h4
      have e : i = j := by
        have q1 : (i * ns.prod + rowRank is ns) / ns.prod = i := by
          rw [Nat.mul_comm, Nat.mul_add_div (by omega), Nat.div_eq_of_lt b1, Nat.add_zero]
        have q2 : (j * ns.prod + rowRank js ns) / ns.prod = j := by
          rw [Nat.mul_comm, Nat.mul_add_div (by omega), Nat.div_eq_of_lt b2, Nat.add_zero]
        rw [← q1, h, q2]
      subst e
      rw [ih h4 (by omega)]

/-- Every number below the size is the number of an index tuple. -/
theorem rowRank_surj {ns : List Nat} {k : Nat} (hk : k < ns.prod) : ∃ idx, InRange idx ns ∧ rowRank idx ns = k := by
  induction ns generalizing k with
  | nil => simp at hk; subst hk; exact ⟨[], List.Forall₂.nil, rfl⟩
  | cons n ns ih =>
    rw [List.prod_cons] at hk
    have hp : 0 < ns.prod := by
      rcases Nat.eq_zero_or_pos ns.prod with h | h
      · rw [h] at hk; simp at hk
      · exact h
    obtain ⟨idx, h1, h2⟩ := ih (Nat.mod_lt k hp)
    refine ⟨k / ns.prod :: idx, .cons ?_ h1, ?_⟩
    · rw [Nat.div_lt_iff_lt_mul hp]; exact hk
    · simp only [rowRank, h2]
      rw [Nat.mul_comm]; exact Nat.div_add_mod k ns.prod

theorem set_snoc {β : Type} (A : List β) (a x : β) (B : List β) : (A ++ a :: B).set A.length x = A ++ x :: B := by
  rw [List.set_append_right _ _ (Nat.le_refl _), Nat.sub_self]; rfl

theorem get_snoc {β : Type} (A : List β) (a : β) (B : List β) : (A ++ a :: B)[A.length]? = some a := by
  rw [List.getElem?_append_right (Nat.le_refl _), Nat.sub_self]; rfl

theorem s2sLoop_row {r i : Nat} {k s1 s2 k' : Int} {a : List Int} (h1 : a[i]? = some s2) (h2 : i32 (k * s1) = some k') :
    s2sLoop .row (r + 1) (i + 1) k s1 a = s2sLoop .row r i k' s2 (a.set i k') := by
  rw [s2sLoop]
  simp only [Nat.add_sub_cancel, h1, h2, Option.bind_eq_bind, Option.bind_some]

theorem s2sLoop_col {r i : Nat} {k s1 s2 k' : Int} {a : List Int} (h1 : a[i + 1]? = some s2)
    (h2 : i32 (k * s1) = some k') :
    s2sLoop .col (r + 1) i k s1 a = s2sLoop .col r (i + 1) k' s2 (a.set (i + 1) k') := by
  rw [s2sLoop]
  simp only [h1, h2, Option.bind_eq_bind, Option.bind_some]

theorem s2s_row (A B : List Nat) (b : Nat) (hA : ∀ n ∈ A, 0 < n) (hb : ∀ n ∈ b :: B, 0 < n)
    {K : Nat} (hK : K ≤ 2147483648)
    (hk : (A ++ b :: B).tail.prod < K ∨ A = []) :
    s2sLoop .row A.length A.length B.prod b (ints (A ++ rowStrides (b :: B))) =
      some (ints (rowStrides (A ++ b :: B))) := by
  induction A using List.reverseRecOn generalizing b B with
  | nil => rfl
  | append_singleton A a ih =>
    have hpos : ∀ n ∈ A, 0 < n := fun n hn => hA n (by simp [hn])
    have hk' : B.prod * b < K := by
      rcases hk with h | h
      · rw [Nat.mul_comm, ← List.prod_cons]
        refine Nat.lt_of_le_of_lt ?_ h
        cases A with
        | nil => simp
        | cons x A =>
          simp only [List.append_assoc, List.cons_append, List.nil_append, List.tail_cons, List.prod_append,
            List.prod_cons]
          have h1 := prod_pos' fun n hn => hpos n (List.mem_cons_of_mem _ hn)
          have h2 := hA a (by simp)
          have h3 : 1 * (b * B.prod) ≤ (A.prod * a) * (b * B.prod) := Nat.mul_le_mul_right _ (Nat.mul_pos h1 h2)
          rw [Nat.mul_assoc, Nat.one_mul] at h3
          exact h3
      · simp at h
    have hget : (ints (A ++ [a] ++ rowStrides (b :: B)))[A.length]? = some (a : Int) := by
      rw [ints_get, List.append_assoc, List.cons_append, List.nil_append, get_snoc]; rfl
    have hmul : ((B.prod : Int) * b) = (((b :: B).prod : Nat) : Int) := by
      rw [List.prod_cons, Nat.mul_comm]; simp
    have hset : (ints (A ++ [a] ++ rowStrides (b :: B))).set A.length (((b :: B).prod : Nat) : Int) =
        ints (A ++ rowStrides (a :: b :: B)) := by
      rw [List.append_assoc, List.cons_append, List.nil_append, ints_append, ints_cons]
      have := set_snoc (ints A) (a : Int) (((b :: B).prod : Nat) : Int) (ints (rowStrides (b :: B)))
      rw [ints_length] at this
      rw [this, ints_append]
      rfl
    have hlen : (A ++ [a]).length = A.length + 1 := by simp
    rw [hlen]
    have h2 : i32 ((B.prod : Int) * b) = some (((b :: B).prod : Nat) : Int) := by
      rw [hmul]
      apply i32_nat
      rw [List.prod_cons, Nat.mul_comm]
      exact Nat.lt_of_lt_of_le hk' hK
    rw [s2sLoop_row hget h2, hset]
    rw [ih (b :: B) a hpos (by
      intro n hn
      rcases List.mem_cons.1 hn with rfl | hn
      · exact hA _ (by simp)
      · exact hb n hn) (by
        rcases hk with h | h
        · left; simpa using h
        · simp at h)]
    simp

theorem s2s_col (A B : List Nat) (b : Nat) (hA : ∀ n ∈ A, 0 < n) (hb : ∀ n ∈ b :: B, 0 < n)
    {K : Nat} (hK : K ≤ 2147483648)
    (hk : (A.reverse ++ b :: B).tail.prod < K ∨ A = []) :
    s2sLoop .col A.length B.length B.prod b (ints ((rowStrides (b :: B)).reverse ++ A)) =
      some (ints (rowStrides (A.reverse ++ b :: B)).reverse) := by
  induction A generalizing b B with
  | nil => simp [s2sLoop]
  | cons a A ih =>
    have hpos : ∀ n ∈ A, 0 < n := fun n hn => hA n (by simp [hn])
    have hk' : B.prod * b < K := by
      rcases hk with h | h
      · rw [Nat.mul_comm, ← List.prod_cons]
        refine Nat.lt_of_le_of_lt ?_ h
        have hx : ∀ R : List Nat, (∀ n ∈ R, 0 < n) → (b :: B).prod ≤ (R ++ [a] ++ b :: B).tail.prod := by
          intro R hR
          cases R with
          | nil => simp
          | cons x R =>
            simp only [List.append_assoc, List.cons_append, List.nil_append, List.tail_cons, List.prod_append,
              List.prod_cons]
            have h1 := prod_pos' fun n hn => hR n (List.mem_cons_of_mem _ hn)
            have h2 := hA a (by simp)
            have h3 : 1 * (b * B.prod) ≤ (R.prod * a) * (b * B.prod) := Nat.mul_le_mul_right _ (Nat.mul_pos h1 h2)
            rw [Nat.mul_assoc, Nat.one_mul] at h3
            exact h3
        rw [List.reverse_cons]
        exact hx A.reverse (by simpa using hpos)
      · simp at h
    have hlen : (rowStrides (b :: B)).reverse.length = B.length + 1 := by simp
    have hget : (ints ((rowStrides (b :: B)).reverse ++ a :: A))[B.length + 1]? = some (a : Int) := by
      rw [ints_get, ← hlen, get_snoc]; rfl
    have hmul : ((B.prod : Int) * b) = (((b :: B).prod : Nat) : Int) := by
      rw [List.prod_cons, Nat.mul_comm]; simp
    have hset : (ints ((rowStrides (b :: B)).reverse ++ a :: A)).set (B.length + 1) (((b :: B).prod : Nat) : Int) =
        ints ((rowStrides (a :: b :: B)).reverse ++ A) := by
      rw [ints_append, ints_cons]
      have := set_snoc (ints (rowStrides (b :: B)).reverse) (a : Int) (((b :: B).prod : Nat) : Int) (ints A)
      rw [ints_length, hlen] at this
      rw [this]
      have h2 : rowStrides (a :: b :: B) = (b :: B).prod :: rowStrides (b :: B) := rfl
      rw [h2, List.reverse_cons, ints_append, ints_append, List.append_assoc]
      rfl
    rw [List.length_cons]
    have h2 : i32 ((B.prod : Int) * b) = some (((b :: B).prod : Nat) : Int) := by
      rw [hmul]
      apply i32_nat
      rw [List.prod_cons, Nat.mul_comm]
      exact Nat.lt_of_lt_of_le hk' hK
    rw [s2sLoop_col hget h2, hset]
    have := ih (b :: B) a hpos (by
      intro n hn
      rcases List.mem_cons.1 hn with rfl | hn
      · exact hA _ (by simp)
      · exact hb n hn) (by
        rcases hk with h | h
        · left; simpa using h
        · simp at h)
    rw [List.length_cons] at this
    rw [this]; simp

/-- Strides of a block in a layout. -/
def strides : Layout → List Nat → List Nat
  | .row, ns => rowStrides ns
  | .col, ns => (rowStrides ns.reverse).reverse

theorem strides_length (lay : Layout) (ns : List Nat) : (strides lay ns).length = ns.length := by
  cases lay <;> simp [strides]

/-- The product of all extents but the slowest one. -/
def inner : Layout → List Nat → Nat
  | .row, ns => ns.tail.prod
  | .col, ns => ns.reverse.tail.prod

theorem shape2stride_spec (lay : Layout) {ns : List Nat} (h0 : ns ≠ []) (hp : ∀ n ∈ ns, 0 < n)
    (hk : inner lay ns < 2147483648) : shape2stride lay (ints ns) = some (ints (strides lay ns)) := by
  cases lay with
  | row =>
    obtain ⟨A, b, rfl⟩ : ∃ A b, ns = A ++ [b] := ⟨ns.dropLast, ns.getLast h0, (List.dropLast_append_getLast h0).symm⟩
    have hl : (ints (A ++ [b])).length - 1 = A.length := by simp
    have hg : (ints (A ++ [b]))[A.length]? = some (b : Int) := by rw [ints_get, get_snoc]; rfl
    have hs : (ints (A ++ [b])).set A.length 1 = ints (A ++ rowStrides [b]) := by
      rw [ints_append]
      have := set_snoc (ints A) (b : Int) 1 []
      rw [ints_length] at this
      rw [ints_append]; exact this
    have := s2s_row A [] b (fun n hn => hp n (by simp [hn])) (fun n hn => hp n (by simp at hn; simp [hn])) (Nat.le_refl _) (.inl hk)
    simp only [shape2stride, hl, hg, Option.bind_eq_bind, Option.bind_some, hs]
    exact this
  | col =>
    obtain ⟨b, A, rfl⟩ := List.exists_cons_of_ne_nil h0
    have := s2s_col A [] b (fun n hn => hp n (by simp [hn])) (fun n hn => hp n (by simp at hn; simp [hn]))
      (Nat.le_refl _) (.inl (by simpa [inner] using hk))
    simp only [shape2stride, ints_cons, List.getElem?_cons_zero, List.length_cons, ints_length, Nat.add_sub_cancel,
      Option.bind_eq_bind, Option.bind_some, List.set_cons_zero]
    rw [show strides .col (b :: A) = (rowStrides (A.reverse ++ [b])).reverse by simp [strides]]
    exact this

theorem dot_reverse {i : List Nat} {t : List Int} (h : i.length = t.length) : dot i.reverse t.reverse = dot i t := by
  induction i generalizing t with
  | nil => cases t with
    | nil => rfl
    | cons => simp at h
  | cons x i ih => cases t with
    | nil => simp at h
    | cons y t =>
      have h' : i.length = t.length := by simpa using h
      rw [List.reverse_cons, List.reverse_cons, dot_append (by simpa using h'), ih h']
      simp; ring

theorem extent_reverse {i : List Nat} {t : List Int} (h : i.length = t.length) : extent i.reverse t.reverse = extent i t := by
  induction i generalizing t with
  | nil => cases t with
    | nil => rfl
    | cons => simp at h
  | cons x i ih => cases t with
    | nil => simp at h
    | cons y t =>
      have h' : i.length = t.length := by simpa using h
      rw [List.reverse_cons, List.reverse_cons, extent_append (by simpa using h'), ih h']
      simp; ring

theorem inRange_reverse {idx ns : List Nat} (h : InRange idx ns) : InRange idx.reverse ns.reverse :=
  List.rel_reverse h

theorem dot_strides (lay : Layout) {idx ns : List Nat} (h : idx.length = ns.length) :
    dot idx (ints (strides lay ns)) = layoutRank lay idx ns := by
  cases lay with
  | row => exact dot_rowStrides idx ns
  | col =>
    have h1 : ints (strides .col ns) = (ints (rowStrides ns.reverse)).reverse := by simp [strides, ints]
    rw [h1]
    conv_lhs => rw [← List.reverse_reverse idx]
    rw [dot_reverse (by simp [h]), dot_rowStrides]; rfl

theorem extent_rowStrides {ns : List Nat} (hp : ∀ n ∈ ns, 0 < n) :
    extent ns (ints (rowStrides ns)) ≤ ns.length * ns.prod := by
  induction ns with
  | nil => simp
  | cons n ns ih =>
    have h := ih fun m hm => hp m (by simp [hm])
    have hn := hp n (by simp)
    simp only [rowStrides, ints_cons, extent_cons, List.length_cons, List.prod_cons, Int.natAbs_natCast]
    have : ns.length * ns.prod ≤ ns.length * (n * ns.prod) :=
      Nat.mul_le_mul_left _ (Nat.le_mul_of_pos_left _ hn)
    rw [Nat.add_mul, Nat.one_mul]; omega

theorem extent_strides (lay : Layout) {ns : List Nat} (hp : ∀ n ∈ ns, 0 < n) :
    extent ns (ints (strides lay ns)) ≤ ns.length * ns.prod := by
  cases lay with
  | row => exact extent_rowStrides hp
  | col =>
    have h1 : ints (strides .col ns) = (ints (rowStrides ns.reverse)).reverse := by simp [strides, ints]
    have := extent_rowStrides (ns := ns.reverse) (by simpa using hp)
    rw [h1]
    have h2 := extent_reverse (i := ns.reverse) (t := ints (rowStrides ns.reverse)) (by simp)
    rw [List.reverse_reverse] at h2
    rw [h2]
    simpa using this

theorem layoutRank_lt (lay : Layout) {idx ns : List Nat} (h : InRange idx ns) : layoutRank lay idx ns < ns.prod := by
  cases lay with
  | row => exact rowRank_lt h
  | col => have := rowRank_lt (inRange_reverse h); rwa [List.prod_reverse] at this

theorem layoutRank_inj (lay : Layout) {idx jdx ns : List Nat} (hi : InRange idx ns) (hj : InRange jdx ns)
    (h : layoutRank lay idx ns = layoutRank lay jdx ns) : idx = jdx := by
  cases lay with
  | row => exact rowRank_inj hi hj h
  | col => exact List.reverse_injective (rowRank_inj (inRange_reverse hi) (inRange_reverse hj) h)

theorem layoutRank_surj (lay : Layout) {ns : List Nat} {k : Nat} (hk : k < ns.prod) :
    ∃ idx, InRange idx ns ∧ layoutRank lay idx ns = k := by
  cases lay with
  | row => exact rowRank_surj hk
  | col =>
    obtain ⟨idx, h1, h2⟩ := rowRank_surj (ns := ns.reverse) (k := k) (by rwa [List.prod_reverse])
    refine ⟨idx.reverse, by simpa using inRange_reverse h1, ?_⟩
    simpa [layoutRank, colRank] using h2

/-! ### transposition -/

theorem swap_mid (A M B : List Int) (x y : Int) :
    swap (A ++ x :: M ++ y :: B) A.length (A.length + M.length + 1) = some (A ++ y :: M ++ x :: B) := by
  have h1 : (A ++ x :: M ++ y :: B)[A.length]? = some x := by
    rw [List.append_assoc, List.cons_append, get_snoc]
  have hl : (A ++ x :: M).length = A.length + M.length + 1 := by simp; omega
  have h2 : (A ++ x :: M ++ y :: B)[A.length + M.length + 1]? = some y := by
    rw [← hl, get_snoc]
  have h3 : (A ++ x :: M ++ y :: B).set A.length y = A ++ y :: M ++ y :: B := by
    rw [List.append_assoc, List.cons_append, set_snoc, List.append_assoc, List.cons_append]
  have h4 : (A ++ y :: M ++ y :: B).set (A.length + M.length + 1) x = A ++ y :: M ++ x :: B := by
    have hl' : (A ++ y :: M).length = A.length + M.length + 1 := by simp; omega
    rw [← hl', set_snoc]
  simp only [swap, h1, h2, Option.bind_eq_bind, Option.bind_some, h3, h4]

theorem transLoop_spec (n : Nat) : ∀ (A M B A' M' B' : List Int), M.length = n → M'.length = n → A'.length = A.length →
    transLoop A.length (A.length + n) (A ++ M ++ B) (A' ++ M' ++ B') =
      some (A ++ M.reverse ++ B, A' ++ M'.reverse ++ B') := by
  induction n using Nat.strongRecOn with
  | _ n ih =>
    intro A M B A' M' B' hM hM' hA
    match n, hM, hM', ih with
    | 0, hM, hM', ih =>
      have h1 := List.length_eq_zero_iff.1 hM
      have h2 := List.length_eq_zero_iff.1 hM'
      subst h1 h2
      cases hA2 : A.length with
      | zero => rfl
      | succ k =>
        show transLoop (k + 1) (k + 1) _ _ = _
        rw [transLoop, if_neg (by omega)]; rfl
    | 1, hM, hM', ih =>
      obtain ⟨x, rfl⟩ := List.length_eq_one_iff.1 hM
      obtain ⟨y, rfl⟩ := List.length_eq_one_iff.1 hM'
      rw [transLoop, if_neg (by omega)]; rfl
    | k + 2, hM, hM', ih =>
      have mk : ∀ L : List Int, L.length = k + 2 → ∃ x R y, L = x :: R ++ [y] ∧ R.length = k := by
        intro L hL
        obtain ⟨x, L', rfl⟩ := List.exists_cons_of_ne_nil (l := L) (by rintro rfl; simp at hL)
        have hne : L' ≠ [] := by rintro rfl; simp at hL
        refine ⟨x, L'.dropLast, L'.getLast hne, ?_, ?_⟩
        · rw [List.cons_append, List.dropLast_append_getLast hne]
        · simp at hL ⊢; omega
      obtain ⟨x, R, y, rfl, hR⟩ := mk M hM
      obtain ⟨x', R', y', rfl, hR'⟩ := mk M' hM'
      have e1 : A ++ (x :: R ++ [y]) ++ B = A ++ x :: R ++ y :: B := by simp
      have e2 : A' ++ (x' :: R' ++ [y']) ++ B' = A' ++ x' :: R' ++ y' :: B' := by simp
      have s1 := swap_mid A R B x y
      have s2 := swap_mid A' R' B' x' y'
      rw [hR] at s1
      rw [hA, hR'] at s2
      have := ih k (by omega) (A ++ [y]) R (x :: B) (A' ++ [y']) R' (x' :: B') hR hR' (by simp [hA])
      rw [show A.length + (k + 2) = (A.length + k + 1) + 1 by omega, transLoop, if_pos (by omega), e1, e2]
      simp only [s1, s2, Option.bind_eq_bind, Option.bind_some]
      have hl : (A ++ [y]).length = A.length + 1 := by simp
      rw [hl] at this
      rw [show A.length + k + 1 = A.length + 1 + k by omega]
      have f1 : A ++ y :: R ++ x :: B = A ++ [y] ++ R ++ x :: B := by simp
      have f2 : A' ++ y' :: R' ++ x' :: B' = A' ++ [y'] ++ R' ++ x' :: B' := by simp
      rw [f1, f2, this]
      simp

theorem transpose_eq {s : Span} (h : s.stride.length = s.shape.length) :
    transpose s = some ⟨s.data, s.shape.reverse, s.stride.reverse⟩ := by
  have := transLoop_spec s.shape.length [] s.shape [] [] s.stride [] rfl h rfl
  simp only [List.nil_append, List.append_nil, List.length_nil, Nat.zero_add] at this
  simp only [transpose, this, Option.bind_eq_bind, Option.bind_some]

end Verif.Cspan
