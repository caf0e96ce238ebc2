import Verif.Sort.Lemmas
import Mathlib.Tactic.Common
import Mathlib.Tactic.Linarith

/-!
How many comparisons sorting makes. Each function of `Model.lean` has a twin that also counts the calls of
`less`; forgetting the count gives the function back.
-/
namespace Verif.Sort
open Spec
variable {α : Type}

/-- sort_prv.h:90, with the number of comparisons. -/
def scanUpC (less : α → α → Bool) (v : α) (l : List α) : Nat → Int → Option (Int × Nat)
  | 0, _ => none
  | f + 1, i => (getI l i).bind fun x =>
    if less x v then (if i + 1 = 0 then some (i + 1, 1) else (scanUpC less v l f (i + 1)).map fun r => (r.1, r.2 + 1))
    else some (i, 1)

/-- sort_prv.h:91, with the number of comparisons. -/
def scanDownC (less : α → α → Bool) (v : α) (l : List α) : Nat → Int → Option (Int × Nat)
  | 0, _ => none
  | f + 1, j => (getI l j).bind fun x =>
    if less v x then (if j - 1 = 0 then some (j - 1, 1) else (scanDownC less v l f (j - 1)).map fun r => (r.1, r.2 + 1))
    else some (j, 1)

/-- sort_prv.h:89-95, with the number of comparisons. -/
def partitionC (less : α → α → Bool) (v : α) : Nat → List α → Int → Int → Option ((List α × Int × Int) × Nat)
  | 0, _, _, _ => none
  | f + 1, l, i, j =>
    (scanUpC less v l (l.length + 1) i).bind fun u =>
    (scanDownC less v l (l.length + 1) j).bind fun d =>
    if u.1 > d.1 then some ((l, u.1, d.1), u.2 + d.2)
    else (swapI l u.1 d.1).bind fun l =>
      if u.1 + 1 ≤ d.1 - 1 then (partitionC less v f l (u.1 + 1) (d.1 - 1)).map fun r => (r.1, r.2 + (u.2 + d.2))
      else some ((l, u.1 + 1, d.1 - 1), u.2 + d.2)

/-- sort_prv.h:73-78, with the number of comparisons. -/
def insInnerC (less : α → α → Bool) (x : α) : Nat → List α → Option ((List α × Nat) × Nat)
  | 0, l => some ((l, 0), 0)
  | jj + 1, l => (l[jj]?).bind fun y =>
    if less x y then (setI l (jj + 1 : Nat) y).bind fun l => (insInnerC less x jj l).map fun r => (r.1, r.2 + 1)
    else some ((l, jj + 1), 1)

/-- sort_prv.h:70-80, with the number of comparisons. -/
def insOuterC (less : α → α → Bool) : Nat → Nat → List α → Option (List α × Nat)
  | 0, _, l => some (l, 0)
  | count + 1, i, l => (l[i]?).bind fun x =>
    (insInnerC less x i l).bind fun r =>
    (setI r.1.1 r.1.2 x).bind fun l =>
    (insOuterC less count (i + 1) l).map fun s => (s.1, s.2 + r.2)

/-- sort_prv.h:69-81, with the number of comparisons. -/
def insertsortC (less : α → α → Bool) (l : List α) (lo hi : Int) : Option (List α × Nat) :=
  if lo < 0 then none else insOuterC less (hi - lo).toNat (lo.toNat + 1) l

/-- sort_prv.h:101-102, with the number of comparisons. -/
def sortPartC (less : α → α → Bool) (rec : List α → Int → Int → Option (List α × Nat)) (l : List α) (lo j : Int) : Option (List α × Nat) :=
  if j - lo > 64 then rec l lo j
  else if j > lo then insertsortC less l lo j
  else some (l, 0)

/-- sort_prv.h:83-104, with the number of comparisons. -/
def sortLHC (less : α → α → Bool) : Nat → List α → Int → Int → Option (List α × Nat)
  | 0, _, _, _ => none
  | f + 1, l, lo, hi =>
    if lo < hi then
      (getI l (lo + (hi - lo) * 7 / 16)).bind fun v =>
      (partitionC less v (l.length + 1) l lo hi).bind fun p =>
      if p.1.2.2 - lo > hi - p.1.2.1 then
        (sortPartC less (sortLHC less f) p.1.1 p.1.2.1 hi).bind fun q =>
        (sortLHC less f q.1 lo p.1.2.2).map fun r => (r.1, r.2 + q.2 + p.2)
      else
        (sortPartC less (sortLHC less f) p.1.1 lo p.1.2.2).bind fun q =>
        (sortLHC less f q.1 p.1.2.1 hi).map fun r => (r.1, r.2 + q.2 + p.2)
    else some (l, 0)

/-- sort_prv.h:54-55 `_sort`, with the number of comparisons. -/
def sortC (less : α → α → Bool) (l : List α) : Option (List α × Nat) :=
  sortLHC less (l.length + 2) l 0 ((l.length : Int) - 1)

/-! ### forgetting the count -/

variable {less : α → α → Bool}

theorem scanUpC_fst (v : α) (l : List α) : ∀ (f : Nat) (i : Int), (scanUpC less v l f i).map (·.1) = scanUp less v l f i := by
  intro f
  induction f with
  | zero => intro i; rfl
  | succ f ih =>
    intro i
    simp only [scanUpC, scanUp, Option.bind_eq_bind]
    cases getI l i with
    | none => rfl
    | some x =>
      simp only [Option.bind_some]
      split
      · split
        · rfl
        · rw [← ih (i + 1), Option.map_map]; rfl
      · rfl

theorem scanDownC_fst (v : α) (l : List α) : ∀ (f : Nat) (j : Int), (scanDownC less v l f j).map (·.1) = scanDown less v l f j := by
  intro f
  induction f with
  | zero => intro i; rfl
  | succ f ih =>
    intro j
    simp only [scanDownC, scanDown, Option.bind_eq_bind]
    cases getI l j with
    | none => rfl
    | some x =>
      simp only [Option.bind_some]
      split
      · split
        · rfl
        · rw [← ih (j - 1), Option.map_map]; rfl
      · rfl

theorem partitionC_fst (v : α) : ∀ (f : Nat) (l : List α) (i j : Int), (partitionC less v f l i j).map (·.1) = partition less v f l i j := by
  intro f
  induction f with
  | zero => intros; rfl
  | succ f ih =>
    intro l i j
    simp only [partitionC, partition, Option.bind_eq_bind, ← scanUpC_fst, ← scanDownC_fst]
    cases scanUpC less v l (l.length + 1) i with
    | none => rfl
    | some u =>
      simp only [Option.bind_some, Option.map_some]
      cases scanDownC less v l (l.length + 1) j with
      | none => rfl
      | some d =>
        simp only [Option.bind_some, Option.map_some]
        split
        · rfl
        · cases swapI l u.1 d.1 with
          | none => rfl
          | some l2 =>
            simp only [Option.bind_some]
            split
            · rw [← ih, Option.map_map]; rfl
            · rfl

theorem insInnerC_fst (x : α) : ∀ (jj : Nat) (l : List α), (insInnerC less x jj l).map (·.1) = insInner less x jj l := by
  intro jj
  induction jj with
  | zero => intro l; rfl
  | succ jj ih =>
    intro l
    simp only [insInnerC, insInner, Option.bind_eq_bind]
    cases l[jj]? with
    | none => rfl
    | some y =>
      simp only [Option.bind_some]
      split
      · cases setI l (jj + 1 : Nat) y with
        | none => rfl
        | some l2 => simp only [Option.bind_some]; rw [← ih, Option.map_map]; rfl
      · rfl

theorem insOuterC_fst : ∀ (count i : Nat) (l : List α), (insOuterC less count i l).map (·.1) = insOuter less count i l := by
  intro count
  induction count with
  | zero => intros; rfl
  | succ count ih =>
    intro i l
    simp only [insOuterC, insOuter, Option.bind_eq_bind, ← insInnerC_fst]
    cases l[i]? with
    | none => rfl
    | some x =>
      simp only [Option.bind_some]
      cases insInnerC less x i l with
      | none => rfl
      | some r =>
        simp only [Option.bind_some, Option.map_some]
        cases setI r.1.1 r.1.2 x with
        | none => rfl
        | some l2 => simp only [Option.bind_some]; rw [← ih, Option.map_map]; rfl

theorem insertsortC_fst (l : List α) (lo hi : Int) : (insertsortC less l lo hi).map (·.1) = insertsort less l lo hi := by
  unfold insertsortC insertsort
  split
  · rfl
  · exact insOuterC_fst _ _ _

theorem sortPartC_fst {recC : List α → Int → Int → Option (List α × Nat)} {rec : List α → Int → Int → Option (List α)}
    (h : ∀ l lo hi, (recC l lo hi).map (·.1) = rec l lo hi) (l : List α) (lo j : Int) : (sortPartC less recC l lo j).map (·.1) = sortPart less rec l lo j := by
  unfold sortPartC sortPart
  split
  · exact h _ _ _
  · split
    · exact insertsortC_fst _ _ _
    · rfl

theorem sortLHC_fst : ∀ (f : Nat) (l : List α) (lo hi : Int), (sortLHC less f l lo hi).map (·.1) = sortLH less f l lo hi := by
  intro f
  induction f with
  | zero => intros; rfl
  | succ f ih =>
    intro l lo hi
    rw [sortLHC, sortLH]
    split
    · simp only [Option.bind_eq_bind, ← partitionC_fst]
      cases getI l (lo + (hi - lo) * 7 / 16) with
      | none => rfl
      | some v =>
        simp only [Option.bind_some]
        cases partitionC less v (l.length + 1) l lo hi with
        | none => rfl
        | some p =>
          simp only [Option.bind_some, Option.map_some]
          split
          · simp only [← sortPartC_fst ih]
            cases sortPartC less (sortLHC less f) p.1.1 p.1.2.1 hi with
            | none => rfl
            | some q => simp only [Option.bind_some, Option.map_some]; rw [← ih, Option.map_map]; rfl
          · simp only [← sortPartC_fst ih]
            cases sortPartC less (sortLHC less f) p.1.1 lo p.1.2.2 with
            | none => rfl
            | some q => simp only [Option.bind_some, Option.map_some]; rw [← ih, Option.map_map]; rfl
    · rfl

/-! ### the counts of the parts -/

theorem scanUpC_count {v : α} {l : List α} : ∀ {f : Nat} {i k : Int} {c : Nat}, scanUpC less v l f i = some (k, c) → (c : Int) ≤ k - i + 1 := by
  intro f
  induction f with
  | zero => intro i k c h; cases h
  | succ f ih =>
    intro i k c h
    simp only [scanUpC] at h
    cases hx : getI l i with
    | none => rw [hx] at h; cases h
    | some x =>
      rw [hx] at h
      simp only [Option.bind_some] at h
      split at h
      · split at h
        · cases h; omega
        · rw [Option.map_eq_some_iff] at h
          obtain ⟨⟨k', c'⟩, h1, h2⟩ := h
          cases h2
          have := ih h1
          omega
      · cases h; omega

theorem scanDownC_count {v : α} {l : List α} : ∀ {f : Nat} {j k : Int} {c : Nat}, scanDownC less v l f j = some (k, c) → (c : Int) ≤ j - k + 1 := by
  intro f
  induction f with
  | zero => intro i k c h; cases h
  | succ f ih =>
    intro j k c h
    simp only [scanDownC] at h
    cases hx : getI l j with
    | none => rw [hx] at h; cases h
    | some x =>
      rw [hx] at h
      simp only [Option.bind_some] at h
      split at h
      · split at h
        · cases h; omega
        · rw [Option.map_eq_some_iff] at h
          obtain ⟨⟨k', c'⟩, h1, h2⟩ := h
          cases h2
          have := ih h1
          omega
      · cases h; omega

theorem partitionC_count {v : α} : ∀ {f : Nat} {l l' : List α} {i j i' j' : Int} {c : Nat}, partitionC less v f l i j = some ((l', i', j'), c) →
    (c : Int) ≤ (i' - i) + (j - j') + 2 := by
  intro f
  induction f with
  | zero => intro l l' i j i' j' c h; cases h
  | succ f ih =>
    intro l l' i j i' j' c h
    simp only [partitionC] at h
    cases hu : scanUpC less v l (l.length + 1) i with
    | none => rw [hu] at h; cases h
    | some u =>
      obtain ⟨u, cu⟩ := u
      have h1 := scanUpC_count hu
      rw [hu] at h
      simp only [Option.bind_some] at h
      cases hd : scanDownC less v l (l.length + 1) j with
      | none => rw [hd] at h; cases h
      | some d =>
        obtain ⟨d, cd⟩ := d
        have h2 := scanDownC_count hd
        rw [hd] at h
        simp only [Option.bind_some] at h
        split at h
        · cases h; omega
        · cases hs : swapI l u d with
          | none => rw [hs] at h; cases h
          | some l2 =>
            rw [hs] at h
            simp only [Option.bind_some] at h
            split at h
            · rw [Option.map_eq_some_iff] at h
              obtain ⟨⟨⟨l3, i3, j3⟩, c3⟩, h3, h4⟩ := h
              cases h4
              have := ih h3
              omega
            · cases h; omega

theorem insInnerC_count {x : α} {lo : Nat} : ∀ {jj : Nat} {l : List α} {r : List α × Nat} {c : Nat}, lo ≤ jj →
    (∀ y, 0 < lo → l[lo - 1]? = some y → less x y = false) → insInnerC less x jj l = some (r, c) → c ≤ jj - lo + 1 := by
  intro jj
  induction jj with
  | zero => intro l r c _ _ h; cases h; omega
  | succ jj ih =>
    intro l r c hlo hb h
    simp only [insInnerC] at h
    cases hy : l[jj]? with
    | none => rw [hy] at h; cases h
    | some y =>
      rw [hy] at h
      simp only [Option.bind_some] at h
      split at h
      · rename_i hless
        have hne : lo ≠ jj + 1 := by
          rintro rfl
          have := hb y (by omega) (by simpa using hy)
          rw [this] at hless; cases hless
        unfold setI at h
        split at h
        · simp only [Option.bind_some, Option.map_eq_some_iff] at h
          obtain ⟨⟨r', c'⟩, h1, h2⟩ := h
          cases h2
          have := ih (by omega) (fun z h0 hz => hb z h0 (by
            rw [List.getElem?_set_ne (by simp; omega)] at hz; exact hz)) h1
          omega
        · cases h
      · cases h; omega

/-- Comparisons of the insertion sort of `n` elements: two for the second, three for the third, and so on. -/
def insBound : Nat → Nat
  | 0 => 0
  | m + 1 => insBound m + (m + 2)

theorem insBound_eq (m : Nat) : 2 * insBound m = m * (m + 3) := by
  induction m with
  | zero => rfl
  | succ m ih => rw [insBound, Nat.mul_add, ih]; nlinarith

theorem insOuterC_count (hw : StrictWeak less) {lo hi : Nat} : ∀ {count i : Nat} {l l' : List α} {c : Nat}, lo < i → i + count = hi + 1 → hi < l.length → Below less l lo hi →
    SortedR less l lo ((i : Int) - 1) → insOuterC less count i l = some (l', c) → c + insBound (i - 1 - lo) ≤ insBound (hi - lo) := by
  intro count
  induction count with
  | zero =>
    intro i l l' c h1 h2 h3 hb hs h
    cases h
    rw [show i - 1 - lo = hi - lo by omega]
    omega
  | succ count ih =>
    intro i l l' c h1 h2 h3 hb hs h
    simp only [insOuterC] at h
    have hx : l[i]? = some l[i] := List.getElem?_eq_getElem (by omega)
    generalize l[i] = x at hx
    rw [hx] at h
    simp only [Option.bind_some] at h
    cases hin : insInnerC less x i l with
    | none => rw [hin] at h; cases h
    | some r =>
      obtain ⟨⟨m, k⟩, c1⟩ := r
      have hc1 := insInnerC_count (lo := lo) (by omega) (fun y h0 hy => hb (lo - 1) i y x (by omega) (by omega) (by omega) hy hx) hin
      rw [hin] at h
      simp only [Option.bind_some] at h
      cases hset : setI m k x with
      | none => rw [hset] at h; cases h
      | some l2 =>
        rw [hset] at h
        simp only [Option.bind_some, Option.map_eq_some_iff] at h
        obtain ⟨⟨l3, c2⟩, h4, h5⟩ := h
        cases h5
        obtain ⟨l2', e2, p2, s2⟩ := insOuter_spec hw lo i 1 i l h1 rfl (by omega) (fun p q x y a b c d e => hb p q x y a b (by omega) d e) hs
        have hl2 : l2' = l2 := by
          have he : insInner less x i l = some (m, k) := by rw [← insInnerC_fst, hin]; rfl
          simp only [insOuter, hx, Option.bind_eq_bind, Option.bind_some, he, hset] at e2
          exact (Option.some.inj e2).symm
        subst hl2
        have hlen := p2.length
        have := ih (by omega) (by omega) (by omega) (hb.of_pres p2 (Int.le_refl _) (by omega))
          (by rw [show ((i + 1 : Nat) : Int) - 1 = i by omega]; exact s2) h4
        have e1 : insBound (i + 1 - 1 - lo) = insBound (i - 1 - lo) + (i - lo + 1) := by
          rw [show i + 1 - 1 - lo = (i - 1 - lo) + 1 by omega, insBound]
          omega
        omega

theorem insertsortC_count (hw : StrictWeak less) {l l' : List α} {lo hi : Nat} {c : Nat} (h : lo ≤ hi) (h2 : hi < l.length) (hb : Below less l lo hi)
    (e : insertsortC less l lo hi = some (l', c)) : c ≤ insBound (hi - lo) := by
  unfold insertsortC at e
  rw [if_neg (by omega)] at e
  have := insOuterC_count hw (lo := lo) (hi := hi) (count := hi - lo) (i := lo + 1) (by omega) (by omega) h2 hb (by intro p q x y h1 h2 h3; omega) (by
    rw [← e]; congr 1; omega)
  simpa [insBound] using this

/-! ### the two parts -/

/-- What is known when a range has been partitioned. -/
theorem partition_parts (hw : StrictWeak less) {l : List α} {a b : Nat} (hlt : a < b) (hhi : b < l.length) (hb : Below less l a b) :
    ∃ v l1 i j, getI l ((a : Int) + ((b : Int) - a) * 7 / 16) = some v ∧ partition less v (l.length + 1) l a b = some (l1, ((i : Nat) : Int), j) ∧ l1.length = l.length ∧
      a < i ∧ i ≤ b + 1 ∧ (a : Int) - 1 ≤ j ∧ j < b ∧ j < i ∧ Below less l1 i b ∧ Below less l1 a j ∧
      (∀ l2, Pres l1 l2 i b → Below less l2 a j) ∧ (∀ l2, Pres l1 l2 a j → Below less l2 i b) := by
  obtain ⟨c, hc⟩ := Int.eq_ofNat_of_zero_le (show 0 ≤ (a : Int) + ((b : Int) - a) * 7 / 16 by omega)
  have hv : l[c]? = some l[c] := List.getElem?_eq_getElem (by omega)
  generalize l[c] = v at hv
  obtain ⟨l1, i, j, e1, q1, q2, q3, q4, q5, q6, q7, q8, q9⟩ :=
    partition_spec hw v a b (l.length + 1) l a b (by omega) (by omega) (by omega) (by omega)
      (by intros; omega) (by intros; omega) c c v v (by omega) (by omega) hv (hw.irrefl v)
      (by omega) (by omega) hv (hw.irrefl v)
  obtain ⟨q9a, q9b⟩ := q9 (Nat.le_refl c)
  have hb1 : Below less l1 a b := hb.of_pres q1 (by omega) (by omega)
  refine ⟨v, l1, i, j, by rw [hc, getI_nat]; exact hv, e1, q1.length, q9a, q5, q6, q9b, q8, ?_, ?_, ?_, ?_⟩
  · intro p q x y p1 qb1 qb2 hx hy
    by_cases hpa : (p : Int) < a
    · exact hb1 p q x y hpa (by omega) qb2 hx hy
    · exact hw.negtrans _ _ _ (q3 q y (by omega) (by omega) hy) (q2 p x (by omega) (by omega) hx)
  · intro p q x y p1 qb1 qb2 hx hy
    exact hb1 p q x y p1 qb1 (by omega) hx hy
  · intro l2 r1 p q x y p1 qb1 qb2 hx hy
    rw [r1.out p (by omega)] at hx
    rw [r1.out q (by omega)] at hy
    exact hb1 p q x y p1 qb1 (by omega) hx hy
  · intro l2 r1 p q x y p1 qb1 qb2 hx hy
    have hL2 : ∀ (p : Nat) x, (a : Int) ≤ p → (p : Int) < i → l2[p]? = some x → less v x = false := by
      intro p x p1 p2 hx
      by_cases hpj : (p : Int) ≤ j
      · exact r1.pred (fun z => less v z = false) (fun r z z1 z2 hz => q2 r z (by omega) (by omega) hz) p x p1 hpj hx
      · rw [r1.out p (by omega)] at hx
        exact q2 p x (by omega) (by omega) hx
    rw [r1.out q (by omega)] at hy
    by_cases hpa : (p : Int) < a
    · rw [r1.out p (by omega)] at hx
      exact hb1 p q x y hpa (by omega) qb2 hx hy
    · exact hw.negtrans _ _ _ (q3 q y (by omega) (by omega) hy) (hL2 p x (by omega) p1 hx)

/-- The bound for `n` elements. -/
def bnd (n : Nat) : Nat := if n ≤ 1 then 0 else 2 * n * n

theorem insBound_bnd (m : Nat) : insBound m ≤ bnd (m + 1) := by
  unfold bnd
  have := insBound_eq m
  split
  · obtain rfl : m = 0 := by omega
    exact Nat.le_refl _
  · nlinarith

theorem bnd_split {n p q : Nat} (hn : 2 ≤ n) (h : p + q ≤ n) (hp : p < n) (hq : q < n) : bnd p + bnd q + (2 * n + 2) ≤ bnd n := by
  have one : ∀ k, k < n → bnd k + (2 * n + 2) ≤ 2 * n * n := by
    intro k hk
    unfold bnd
    split
    · nlinarith
    · have : k + 1 ≤ n := hk
      nlinarith
  have e : bnd n = 2 * n * n := by unfold bnd; rw [if_neg (by omega)]
  rw [e]
  by_cases h1 : p ≤ 1
  · rw [show bnd p = 0 by unfold bnd; rw [if_pos h1]]
    have := one q hq
    omega
  · by_cases h2 : q ≤ 1
    · rw [show bnd q = 0 by unfold bnd; rw [if_pos h2]]
      have := one p hp
      omega
    · unfold bnd
      rw [if_neg h1, if_neg h2]
      obtain ⟨p', rfl⟩ : ∃ p', p = p' + 2 := ⟨p - 2, by omega⟩
      obtain ⟨q', rfl⟩ : ∃ q', q = q' + 2 := ⟨q - 2, by omega⟩
      obtain ⟨r, rfl⟩ : ∃ r, n = p' + 2 + (q' + 2) + r := ⟨n - (p' + 2 + (q' + 2)), by omega⟩
      nlinarith [Nat.zero_le (p' * q'), Nat.zero_le (p' * r), Nat.zero_le (q' * r), Nat.zero_le (r * r)]

theorem sortLHC_count (hw : StrictWeak less) : ∀ (f : Nat) (l : List α) (lo hi : Int), 0 ≤ lo → hi < l.length → (hi - lo + 1).toNat < f → Below less l lo hi →
    ∃ l' c, sortLHC less f l lo hi = some (l', c) ∧ Pres l l' lo hi ∧ c ≤ bnd (hi - lo + 1).toNat := by
  intro f
  induction f with
  | zero => intros; omega
  | succ f ih =>
    intro l lo hi h0 hhi hf hb
    by_cases hlt : lo < hi
    · obtain ⟨a, rfl⟩ := Int.eq_ofNat_of_zero_le h0
      obtain ⟨b, rfl⟩ := Int.eq_ofNat_of_zero_le (show 0 ≤ hi by omega)
      obtain ⟨v, l1, i, j, e0, e1, hlen, i1, i2, j1, j2, hji, b1, b2, b3, b4⟩ := partition_parts hw (by omega) (by omega) hb
      obtain ⟨c1, e1'⟩ : ∃ c, partitionC less v (l.length + 1) l a b = some ((l1, (i : Int), j), c) := by
        rw [← partitionC_fst, Option.map_eq_some_iff] at e1
        obtain ⟨⟨r, c⟩, h1, h2⟩ := e1
        cases h2
        exact ⟨c, h1⟩
      have hc1 := partitionC_count e1'
      have part : ∀ (m : List α) (s t : Int), 0 ≤ s → t < m.length → (t - s + 1).toNat < f → Below less m s t →
          ∃ m' c, sortPartC less (sortLHC less f) m s t = some (m', c) ∧ Pres m m' s t ∧ c ≤ bnd (t - s + 1).toNat := by
        intro m s t s0 tl tf mb
        unfold sortPartC
        split
        · exact ih m s t s0 tl tf mb
        · split
          · obtain ⟨s', rfl⟩ := Int.eq_ofNat_of_zero_le s0
            obtain ⟨t', rfl⟩ := Int.eq_ofNat_of_zero_le (show 0 ≤ t by omega)
            obtain ⟨m', e, p, -⟩ := insertsort_spec hw m s' t' (by omega) (by omega) mb
            rw [← insertsortC_fst, Option.map_eq_some_iff] at e
            obtain ⟨⟨r, c⟩, h1, rfl⟩ := e
            refine ⟨r, c, h1, p, ?_⟩
            have h2 := insertsortC_count hw (by omega) (by omega) mb h1
            have h3 := insBound_bnd (t' - s')
            rw [show ((t' : Int) - s' + 1).toNat = t' - s' + 1 by omega]
            omega
          · exact ⟨m, 0, rfl, Pres.refl _ _ _, Nat.zero_le _⟩
      have hP := (sortLH_spec hw (f + 1) l a b h0 hhi hf hb)
      have fin : ∀ r c, sortLHC less (f + 1) l a b = some (r, c) → Pres l r a b := by
        intro r c h
        obtain ⟨l', e, p, -⟩ := hP
        rw [← sortLHC_fst, h] at e
        cases e
        exact p
      have hsplit := bnd_split (n := ((b : Int) - a + 1).toNat) (p := ((b : Int) - i + 1).toNat) (q := (j - a + 1).toNat) (by omega) (by omega) (by omega) (by omega)
      by_cases hsw : j - (a : Int) > (b : Int) - (i : Int)
      · obtain ⟨l2, c2, e2, r1, r2⟩ := part l1 i b (by omega) (by omega) (by omega) b1
        have hlen2 := r1.length
        obtain ⟨l3, c3, e3, -, r4⟩ := ih l2 a j (by omega) (by omega) (by omega) (b3 l2 r1)
        have e : sortLHC less (f + 1) l a b = some (l3, c3 + c2 + c1) := by
          rw [sortLHC, if_pos hlt, e0]
          simp only [Option.bind_some, e1']
          rw [if_pos hsw, e2]
          simp only [Option.bind_some, e3]
          rfl
        exact ⟨l3, _, e, fin _ _ e, by omega⟩
      · obtain ⟨l2, c2, e2, r1, r2⟩ := part l1 a j (by omega) (by omega) (by omega) b2
        have hlen2 := r1.length
        obtain ⟨l3, c3, e3, -, r4⟩ := ih l2 i b (by omega) (by omega) (by omega) (b4 l2 r1)
        have e : sortLHC less (f + 1) l a b = some (l3, c3 + c2 + c1) := by
          rw [sortLHC, if_pos hlt, e0]
          simp only [Option.bind_some, e1']
          rw [if_neg hsw, e2]
          simp only [Option.bind_some, e3]
          rfl
        exact ⟨l3, _, e, fin _ _ e, by omega⟩
    · exact ⟨l, 0, by rw [sortLHC, if_neg hlt], Pres.refl _ _ _, Nat.zero_le _⟩

/-- Sorting `n` elements never takes more than `2 n²` comparisons, whatever the elements are. -/
theorem sort_comparisons (hw : StrictWeak less) (l : List α) : ∃ l' c, sortC less l = some (l', c) ∧ sort less l = some l' ∧ c ≤ 2 * l.length * l.length := by
  obtain ⟨l', c, e, -, hc⟩ := sortLHC_count hw (l.length + 2) l 0 ((l.length : Int) - 1) (by omega) (by omega) (by omega) (by intro p q x y h1; omega)
  refine ⟨l', c, e, ?_, ?_⟩
  · unfold sort sortLowHigh
    rw [← sortLHC_fst, e]
    rfl
  · refine Nat.le_trans hc ?_
    rw [show ((l.length : Int) - 1 - 0 + 1).toNat = l.length by omega]
    unfold bnd
    split <;> omega

private def lt : Nat → Nat → Bool := fun a b => decide (a < b)
private theorem lt_sw : StrictWeak lt := strictWeak_nat

example : ∃ l' c, sortC lt [5, 2, 9, 1, 5, 6, 3, 8, 7, 0] = some (l', c) ∧ sort lt [5, 2, 9, 1, 5, 6, 3, 8, 7, 0] = some l' ∧ c ≤ 200 :=
  sort_comparisons lt_sw _
example : sortC lt [5, 2, 9, 1, 5, 6, 3, 8, 7, 0] = some ([0, 1, 2, 3, 5, 5, 6, 7, 8, 9], 35) := by decide +kernel


end Verif.Sort
