import Verif.Sort.Model
import Verif.Sort.Spec
import Verif.PQueue.Lemmas
namespace Verif.Sort
open Spec
variable {α : Type}

theorem getI_nat (l : List α) (p : Nat) : getI l (p : Int) = l[p]? := by simp [getI]

theorem setI_nat (l : List α) (p : Nat) (x : α) (h : p < l.length) : setI l (p : Int) x = some (l.set p x) := by
  simp [setI, h]

/-- `l'` is obtained from `l` by rearranging positions `lo..hi`. -/
structure Pres (l l' : List α) (lo hi : Int) : Prop where
  perm : l'.Perm l
  out : ∀ p : Nat, ¬ (lo ≤ p ∧ (p : Int) ≤ hi) → l'[p]? = l[p]?
  pred : ∀ P : α → Prop, (∀ (p : Nat) x, lo ≤ p → (p : Int) ≤ hi → l[p]? = some x → P x) →
    ∀ (p : Nat) x, lo ≤ p → (p : Int) ≤ hi → l'[p]? = some x → P x

theorem Pres.refl (l : List α) (lo hi : Int) : Pres l l lo hi :=
  ⟨List.Perm.refl _, fun _ _ => rfl, fun _ h => h⟩

theorem Pres.trans {a b c : List α} {lo hi : Int} (h1 : Pres a b lo hi) (h2 : Pres b c lo hi) :
    Pres a c lo hi :=
  ⟨h2.perm.trans h1.perm, fun p hp => (h2.out p hp).trans (h1.out p hp),
    fun P h => h2.pred P (h1.pred P h)⟩

theorem Pres.mono {a b : List α} {lo hi lo' hi' : Int} (h : Pres a b lo hi) (h1 : lo' ≤ lo) (h2 : hi ≤ hi') :
    Pres a b lo' hi' := by
  refine ⟨h.perm, fun p hp => h.out p (by omega), fun P hP p x hp1 hp2 hx => ?_⟩
  by_cases hin : lo ≤ p ∧ (p : Int) ≤ hi
  · exact h.pred P (fun q y q1 q2 hy => hP q y (by omega) (by omega) hy) p x hin.1 hin.2 hx
  · exact hP p x hp1 hp2 (by rw [← h.out p hin]; exact hx)

theorem Pres.length {a b : List α} {lo hi : Int} (h : Pres a b lo hi) : b.length = a.length := h.perm.length_eq

theorem swap_pres (l : List α) (i j : Nat) (hi : i < l.length) (hj : j < l.length) {lo hi' : Int}
    (a1 : lo ≤ i) (a2 : (i : Int) ≤ hi') (b1 : lo ≤ j) (b2 : (j : Int) ≤ hi') :
    ∃ l', swapI l i j = some l' ∧ Pres l l' lo hi' ∧ l'[i]? = l[j]? ∧ l'[j]? = l[i]? ∧
      ∀ p, p ≠ i → p ≠ j → l'[p]? = l[p]? := by
  have hx : l[i]? = some l[i] := List.getElem?_eq_getElem hi
  have hy : l[j]? = some l[j] := List.getElem?_eq_getElem hj
  generalize l[i] = x at hx
  generalize l[j] = y at hy
  refine ⟨(l.set i y).set j x, ?_, ?_, ?_, ?_, ?_⟩
  · simp only [swapI, getI_nat, hx, hy, Option.bind_eq_bind, Option.bind_some, setI_nat l i y hi,
      setI_nat (l.set i y) j x (by simpa using hj)]
  · refine ⟨PQueue.set_set_perm l i j x y hx hy, ?_, ?_⟩
    · intro p hp
      rw [List.getElem?_set_ne (by omega), List.getElem?_set_ne (by omega)]
    · intro P hP p z hp1 hp2 hz
      rw [List.getElem?_set] at hz
      split at hz
      · split at hz
        · cases hz; exact hP i _ a1 a2 hx
        · cases hz
      · rw [List.getElem?_set] at hz
        split at hz
        · cases hz; exact hP j _ b1 b2 hy
        · exact hP p z hp1 hp2 hz
  · by_cases h : i = j
    · subst h; rw [List.getElem?_set_self (by simpa using hj)]; rw [hx] at hy; cases hy; exact hx.symm
    · rw [List.getElem?_set_ne (by omega), List.getElem?_set_self hi]; exact hy.symm
  · rw [List.getElem?_set_self (by simpa using hj)]; exact hx.symm
  · intro p h1 h2
    rw [List.getElem?_set_ne (by omega), List.getElem?_set_ne (by omega)]

theorem scanUp_spec {less : α → α → Bool} (v : α) (l : List α) :
    ∀ (fuel i p : Nat) (x : α), i ≤ p → p - i < fuel → l[p]? = some x → less x v = false →
      ∃ i' : Nat, scanUp less v l fuel i = some (i' : Int) ∧ i ≤ i' ∧ i' ≤ p ∧
        (∀ q y, i ≤ q → q < i' → l[q]? = some y → less y v = true) ∧
        ∃ y, l[i']? = some y ∧ less y v = false := by
  intro fuel
  induction fuel with
  | zero => intros; omega
  | succ fuel ih =>
    intro i p x h1 h2 hx hlt
    have hp := (List.getElem?_eq_some_iff.1 hx).1
    have hy : l[i]? = some l[i] := List.getElem?_eq_getElem (by omega)
    generalize l[i] = y at hy
    by_cases hc : less y v = true
    · have hne : i ≠ p := by rintro rfl; rw [hx] at hy; cases hy; rw [hlt] at hc; cases hc
      obtain ⟨i', e, a1, a2, a3, a4⟩ := ih (i + 1) p x (by omega) (by omega) hx hlt
      refine ⟨i', ?_, by omega, a2, ?_, a4⟩
      · simp only [scanUp, getI_nat, hy, Option.bind_eq_bind, Option.bind_some, hc, if_true]
        rw [if_neg (by omega)]
        exact e
      · intro q z q1 q2 hz
        by_cases hq : q = i
        · subst hq; rw [hy] at hz; cases hz; exact hc
        · exact a3 q z (by omega) q2 hz
    · refine ⟨i, ?_, by omega, h1, by intros; omega, y, hy, by simpa using hc⟩
      simp [scanUp, getI_nat, hy, hc]

theorem scanDown_spec {less : α → α → Bool} (v : α) (l : List α) :
    ∀ (fuel j p : Nat) (x : α), p ≤ j → j < l.length → j - p < fuel → l[p]? = some x → less v x = false →
      ∃ j' : Nat, scanDown less v l fuel j = some (j' : Int) ∧ j' ≤ j ∧ p ≤ j' ∧
        (∀ q y, j' < q → q ≤ j → l[q]? = some y → less v y = true) ∧
        ∃ y, l[j']? = some y ∧ less v y = false := by
  intro fuel
  induction fuel with
  | zero => intros; omega
  | succ fuel ih =>
    intro j p x h1 hj h2 hx hlt
    have hy : l[j]? = some l[j] := List.getElem?_eq_getElem hj
    generalize l[j] = y at hy
    by_cases hc : less v y = true
    · have hne : j ≠ p := by rintro rfl; rw [hx] at hy; cases hy; rw [hlt] at hc; cases hc
      have hcast : (j : Int) - 1 = ((j - 1 : Nat) : Int) := by omega
      by_cases h0 : j - 1 = 0
      · have hp0 : p = 0 := by omega
        subst hp0
        refine ⟨0, ?_, by omega, by omega, ?_, x, hx, hlt⟩
        · simp only [scanDown, getI_nat, hy, Option.bind_eq_bind, Option.bind_some, hc, if_true]
          rw [if_pos (by omega)]; congr 1; omega
        · intro q z q1 q2 hz
          have : q = j := by omega
          subst this; rw [hy] at hz; cases hz; exact hc
      obtain ⟨j', e, a1, a2, a3, a4⟩ := ih (j - 1) p x (by omega) (by omega) (by omega) hx hlt
      refine ⟨j', ?_, by omega, a2, ?_, a4⟩
      · simp only [scanDown, getI_nat, hy, Option.bind_eq_bind, Option.bind_some, hc, if_true]
        rw [if_neg (by omega), hcast]
        exact e
      · intro q z q1 q2 hz
        by_cases hq : q = j
        · subst hq; rw [hy] at hz; cases hz; exact hc
        · exact a3 q z q1 (by omega) hz
    · refine ⟨j, ?_, by omega, h1, by intros; omega, y, hy, by simpa using hc⟩
      simp [scanDown, getI_nat, hy, hc]

/-- The partition loop from a state satisfying its invariant. `i` is a natural number, `j = j1`. -/
theorem partition_spec {less : α → α → Bool} (hw : StrictWeak less) (v : α) (lo hi : Nat) :
    ∀ (fuel : Nat) (l : List α) (i j : Nat), j + 1 - i < fuel → hi < l.length → lo ≤ i → j ≤ hi →
      (∀ (p : Nat) x, lo ≤ p → p < i → l[p]? = some x → less v x = false) →
      (∀ (p : Nat) x, j < p → p ≤ hi → l[p]? = some x → less x v = false) →
      ∀ (p1 p2 : Nat) (x1 x2 : α), i ≤ p1 → p1 ≤ hi → l[p1]? = some x1 → less x1 v = false →
        lo ≤ p2 → p2 ≤ j → l[p2]? = some x2 → less v x2 = false →
      ∃ (l' : List α) (i' : Nat) (j' : Int), partition less v fuel l i j = some (l', (i' : Int), j') ∧
        Pres l l' lo hi ∧
        (∀ (p : Nat) x, lo ≤ p → p < i' → l'[p]? = some x → less v x = false) ∧
        (∀ (p : Nat) x, j' < (p : Int) → p ≤ hi → l'[p]? = some x → less x v = false) ∧
        i ≤ i' ∧ i' ≤ hi + 1 ∧ (lo : Int) - 1 ≤ j' ∧ j' ≤ j ∧ j' < i' ∧
        (p1 ≤ p2 → i < i' ∧ j' < j) := by
  intro fuel
  induction fuel with
  | zero => intros; omega
  | succ fuel ih =>
    intro l i j hf hlen hloi hjhi hL hR p1 p2 x1 x2 a1 a2 ax al b1 b2 bx bl
    obtain ⟨i1, e1, c1, c2, c3, y1, c4, c5⟩ := scanUp_spec v l (l.length + 1) i p1 x1 a1 (by omega) ax al
    obtain ⟨j1, e2, d1, d2, d3, y2, d4, d5⟩ := scanDown_spec v l (l.length + 1) j p2 x2 b2 (by omega) (by omega) bx bl
    have hL1 : ∀ (p : Nat) x, lo ≤ p → p < i1 → l[p]? = some x → less v x = false := by
      intro p x h1 h2 hx
      by_cases hp : p < i
      · exact hL p x h1 hp hx
      · exact hw.asymm _ _ (c3 p x (by omega) h2 hx)
    have hR1 : ∀ (p : Nat) x, j1 < p → p ≤ hi → l[p]? = some x → less x v = false := by
      intro p x h1 h2 hx
      by_cases hp : j < p
      · exact hR p x hp h2 hx
      · exact hw.asymm _ _ (d3 p x h1 (by omega) hx)
    by_cases hij : i1 > j1
    · refine ⟨l, i1, j1, ?_, Pres.refl _ _ _, hL1, fun p x h => hR1 p x (by omega), c1, by omega, by omega,
        by omega, by omega, by omega⟩
      simp only [partition, e1, e2, Option.bind_eq_bind, Option.bind_some]
      rw [if_pos (by omega)]
    · obtain ⟨l2, e3, hp2, g1, g2, g3⟩ := swap_pres l i1 j1 (by omega) (by omega) (lo := lo) (hi' := hi)
        (by omega) (by omega) (by omega) (by omega)
      rw [d4] at g1
      rw [c4] at g2
      have hlen2 := hp2.length
      have hL2 : ∀ (p : Nat) x, lo ≤ p → p < i1 + 1 → l2[p]? = some x → less v x = false := by
        intro p x h1 h2 hx
        by_cases hp : p = i1
        · subst hp; rw [g1] at hx; cases hx; exact d5
        · rw [g3 p hp (by omega)] at hx; exact hL1 p x h1 (by omega) hx
      have hR2 : ∀ (p : Nat) x, j1 ≤ p → p ≤ hi → l2[p]? = some x → less x v = false := by
        intro p x h1 h2 hx
        by_cases hp : p = j1
        · subst hp; rw [g2] at hx; cases hx; exact c5
        · rw [g3 p (by omega) hp] at hx; exact hR1 p x (by omega) h2 hx
      by_cases hcont : (i1 : Int) + 1 ≤ (j1 : Int) - 1
      · obtain ⟨l', i', j', e4, q1, q2, q3, q4, q5, q6, q7, q8, q9⟩ :=
          ih l2 (i1 + 1) (j1 - 1) (by omega) (by omega) (by omega) (by omega)
            hL2 (fun p x h h' => hR2 p x (by omega) h') j1 i1 y1 y2 (by omega) (by omega) g2 c5
            (by omega) (by omega) g1 d5
        refine ⟨l', i', j', ?_, hp2.trans q1, q2, q3, by omega, q5, q6, by omega, q8, by omega⟩
        simp only [partition, e1, e2, Option.bind_eq_bind, Option.bind_some]
        rw [if_neg (by omega)]
        simp only [e3, Option.bind_some]
        rw [if_pos hcont, ← e4]
        congr 1
        omega
      · refine ⟨l2, i1 + 1, (j1 : Int) - 1, ?_, hp2, hL2, fun p x h => hR2 p x (by omega), by omega,
          by omega, by omega, by omega, by omega, by omega⟩
        simp only [partition, e1, e2, Option.bind_eq_bind, Option.bind_some]
        rw [if_neg (by omega)]
        simp only [e3, Option.bind_some]
        rw [if_neg hcont]
        rfl

/-- no element of `lo..hi` is less than an element below `lo`. -/
def Below (less : α → α → Bool) (l : List α) (lo hi : Int) : Prop :=
  ∀ (p q : Nat) x y, (p : Int) < lo → lo ≤ q → (q : Int) ≤ hi → l[p]? = some x → l[q]? = some y →
    less y x = false

/-- positions `lo..hi` are sorted. -/
def SortedR (less : α → α → Bool) (l : List α) (lo hi : Int) : Prop :=
  ∀ (p q : Nat) x y, lo ≤ p → p < q → (q : Int) ≤ hi → l[p]? = some x → l[q]? = some y →
    less y x = false

theorem insInner_spec {less : α → α → Bool} (x : α) :
    ∀ (jj : Nat) (m : List α), jj < m.length →
      ∃ m' k, insInner less x jj m = some (m', k) ∧ k ≤ jj ∧ m'.length = m.length ∧
        (m'.set k x).Perm (m.set jj x) ∧
        (∀ p, p < k ∨ jj < p → m'[p]? = m[p]?) ∧
        (∀ p, k < p → p ≤ jj → m'[p]? = m[p - 1]?) ∧
        (∀ p y, k ≤ p → p < jj → m[p]? = some y → less x y = true) ∧
        (∀ y, 0 < k → m[k - 1]? = some y → less x y = false) := by
  intro jj
  induction jj with
  | zero =>
    intro m h
    exact ⟨m, 0, rfl, by omega, rfl, List.Perm.refl _, fun _ _ => rfl, by intros; omega, by intros; omega,
      by intros; omega⟩
  | succ jj ih =>
    intro m h
    have hy : m[jj]? = some m[jj] := List.getElem?_eq_getElem (by omega)
    generalize m[jj] = y at hy
    by_cases hc : less x y = true
    · obtain ⟨m', k, e, a1, a2, a3, a4, a5, a6, a7⟩ := ih (m.set (jj + 1) y) (by simp; omega)
      refine ⟨m', k, ?_, by omega, by simpa using a2, ?_, ?_, ?_, ?_, ?_⟩
      · simp only [insInner, hy, Option.bind_eq_bind, Option.bind_some, hc, if_true,
          setI_nat m (jj + 1) y h, e]
      · refine a3.trans ?_
        have := PQueue.set_set_perm (m.set (jj + 1) x) (jj + 1) jj x y (List.getElem?_set_self h)
          (by rw [List.getElem?_set_ne (by omega)]; exact hy)
        simpa using this
      · intro p hp
        rw [a4 p (by omega), List.getElem?_set_ne (by omega)]
      · intro p h1 h2
        by_cases hp : p = jj + 1
        · subst hp
          rw [a4 _ (by omega), List.getElem?_set_self h, Nat.add_sub_cancel, hy]
        · rw [a5 p h1 (by omega), List.getElem?_set_ne (by omega)]
      · intro p z h1 h2 hz
        by_cases hp : p = jj
        · subst hp; rw [hy] at hz; cases hz; exact hc
        · exact a6 p z h1 (by omega) (by rw [List.getElem?_set_ne (by omega)]; exact hz)
      · intro z h0 hz
        exact a7 z h0 (by rw [List.getElem?_set_ne (by omega)]; exact hz)
    · refine ⟨m, jj + 1, ?_, by omega, rfl, List.Perm.refl _, fun _ _ => rfl, by intros; omega,
        by intros; omega, ?_⟩
      · simp [insInner, hy, hc]
      · intro z _ hz; rw [Nat.add_sub_cancel, hy] at hz; cases hz; simpa using hc

theorem insOuter_spec {less : α → α → Bool} (hw : StrictWeak less) (lo hi : Nat) :
    ∀ (count i : Nat) (l : List α), lo < i → i + count = hi + 1 → hi < l.length → Below less l lo hi →
      SortedR less l lo ((i : Int) - 1) →
      ∃ l', insOuter less count i l = some l' ∧ Pres l l' lo hi ∧ SortedR less l' lo hi := by
  intro count
  induction count with
  | zero =>
    intro i l h1 h2 h3 hb hs
    exact ⟨l, rfl, Pres.refl _ _ _, by rw [show (i : Int) - 1 = hi by omega] at hs; exact hs⟩
  | succ count ih =>
    intro i l h1 h2 h3 hb hs
    have hx : l[i]? = some l[i] := List.getElem?_eq_getElem (by omega)
    generalize l[i] = x at hx
    obtain ⟨m, k, e, a1, a2, a3, a4, a5, a6, a7⟩ := insInner_spec (less := less) x i l (by omega)
    have hself : l.set i x = l := by
      obtain ⟨hh, rfl⟩ := List.getElem?_eq_some_iff.1 hx
      exact List.set_getElem_self hh
    rw [hself] at a3
    have hk : lo ≤ k := by
      by_cases hlt : lo ≤ k
      · exact hlt
      · exfalso
        have hz : l[lo - 1]? = some l[lo - 1] := List.getElem?_eq_getElem (by omega)
        have t1 := a6 (lo - 1) _ (by omega) (by omega) hz
        have t2 := hb (lo - 1) i _ x (by omega) (by omega) (by omega) hz hx
        rw [t2] at t1; cases t1
    -- the elements of the new list
    have hk' : k < m.length := by omega
    have g1 : ∀ p, p < k → (m.set k x)[p]? = l[p]? := fun p hp => by
      rw [List.getElem?_set_ne (by omega), a4 p (.inl hp)]
    have g2 : (m.set k x)[k]? = some x := List.getElem?_set_self hk'
    have g3 : ∀ p, k < p → p ≤ i → (m.set k x)[p]? = l[p - 1]? := fun p hp hp' => by
      rw [List.getElem?_set_ne (by omega), a5 p hp hp']
    have g4 : ∀ p, i < p → (m.set k x)[p]? = l[p]? := fun p hp => by
      rw [List.getElem?_set_ne (by omega), a4 p (.inr hp)]
    have hl2 : (m.set k x).length = l.length := by simp [a2]
    generalize hm2 : m.set k x = l2 at *
    have hpres : Pres l l2 lo hi := by
      refine ⟨a3, ?_, ?_⟩
      · intro p hp
        by_cases hpi : i < p
        · exact g4 p hpi
        · exact g1 p (by omega)
      · intro P hP p z hp1 hp2 hz
        by_cases c1 : p < k
        · rw [g1 p c1] at hz; exact hP p z hp1 hp2 hz
        · by_cases c2 : p = k
          · subst c2; rw [g2] at hz; cases hz; exact hP i _ (by omega) (by omega) hx
          · by_cases c3 : p ≤ i
            · rw [g3 p (by omega) c3] at hz; exact hP (p - 1) z (by omega) (by omega) hz
            · rw [g4 p (by omega)] at hz; exact hP p z hp1 hp2 hz
    have hbelow : Below less l2 lo hi := by
      intro p q u w hp hq1 hq2 hu hw'
      rw [hpres.out p (by omega)] at hu
      exact hpres.pred (fun w => less w u = false)
        (fun r z r1 r2 hz => hb p r u z hp r1 r2 hu hz) q w hq1 hq2 hw'
    have hlow : ∀ p z, lo ≤ p → p < k → l[p]? = some z → less x z = false := by
      intro p z p1 p2 hz
      have hkm : l[k - 1]? = some l[k - 1] := List.getElem?_eq_getElem (by omega)
      have t1 := a7 _ (by omega) hkm
      by_cases hpk : p = k - 1
      · subst hpk; rw [hz] at hkm; cases hkm; exact t1
      · exact hw.negtrans _ _ _ t1 (hs p (k - 1) z _ (by omega) (by omega) (by omega) hz hkm)
    have hsorted : SortedR less l2 lo (((i + 1 : Nat) : Int) - 1) := by
      intro p q u w p1 pq q1 hu hw'
      by_cases cp1 : p < k
      · rw [g1 p cp1] at hu
        by_cases cq1 : q < k
        · rw [g1 q cq1] at hw'; exact hs p q u w p1 pq (by omega) hu hw'
        · by_cases cq2 : q = k
          · subst cq2; rw [g2] at hw'; cases hw'; exact hlow p u (by omega) cp1 hu
          · rw [g3 q (by omega) (by omega)] at hw'
            exact hs p (q - 1) u w p1 (by omega) (by omega) hu hw'
      · rw [g3 q (by omega) (by omega)] at hw'
        by_cases cp2 : p = k
        · subst cp2; rw [g2] at hu; cases hu
          exact hw.asymm _ _ (a6 (q - 1) w (by omega) (by omega) hw')
        · rw [g3 p (by omega) (by omega)] at hu
          exact hs (p - 1) (q - 1) u w (by omega) (by omega) (by omega) hu hw'
    obtain ⟨l', e', p', s'⟩ := ih (i + 1) l2 (by omega) (by omega) (by omega) hbelow hsorted
    refine ⟨l', ?_, hpres.trans p', s'⟩
    simp only [insOuter, hx, Option.bind_eq_bind, Option.bind_some, e, setI_nat m k x hk', hm2, e']

theorem insertsort_spec {less : α → α → Bool} (hw : StrictWeak less) (l : List α) (lo hi : Nat)
    (h : lo ≤ hi) (h2 : hi < l.length) (hb : Below less l lo hi) :
    ∃ l', insertsort less l lo hi = some l' ∧ Pres l l' lo hi ∧ SortedR less l' lo hi := by
  obtain ⟨l', e, p, s⟩ := insOuter_spec hw lo hi (hi - lo) (lo + 1) l (by omega) (by omega) h2 hb
    (by intro p q x y h1 h2 h3; omega)
  refine ⟨l', ?_, p, s⟩
  unfold insertsort
  rw [if_neg (by omega), ← e]
  congr 1
  omega

theorem Below.of_pres {less : α → α → Bool} {l l' : List α} {lo hi lo' hi' : Int} (hb : Below less l lo hi)
    (hp : Pres l l' lo' hi') (h1 : lo ≤ lo') (h2 : hi' ≤ hi) : Below less l' lo hi := by
  have hp' := hp.mono h1 h2
  intro p q x y h3 h4 h5 hx hy
  rw [hp'.out p (by omega)] at hx
  exact hp'.pred (fun w => less w x = false) (fun r z r1 r2 hz => hb p r x z h3 r1 r2 hx hz) q y h4 h5 hy

theorem sortLH_spec {less : α → α → Bool} (hw : StrictWeak less) :
    ∀ (fuel : Nat) (l : List α) (lo hi : Int), 0 ≤ lo → hi < l.length → (hi - lo + 1).toNat < fuel →
      Below less l lo hi →
      ∃ l', sortLH less fuel l lo hi = some l' ∧ Pres l l' lo hi ∧ SortedR less l' lo hi := by
  intro fuel
  induction fuel with
  | zero => intros; omega
  | succ fuel ih =>
    intro l lo hi h0 hhi hf hb
    by_cases hlt : lo < hi
    · obtain ⟨a, rfl⟩ := Int.eq_ofNat_of_zero_le h0
      obtain ⟨b, rfl⟩ := Int.eq_ofNat_of_zero_le (show 0 ≤ hi by omega)
      obtain ⟨c, hc⟩ := Int.eq_ofNat_of_zero_le (show 0 ≤ (a : Int) + (b - a) * 7 / 16 by omega)
      have hv : l[c]? = some l[c] := List.getElem?_eq_getElem (by omega)
      generalize l[c] = v at hv
      obtain ⟨l1, i, j, e1, q1, q2, q3, q4, q5, q6, q7, q8, q9⟩ :=
        partition_spec hw v a b (l.length + 1) l a b (by omega) (by omega) (by omega) (by omega)
          (by intros; omega) (by intros; omega) c c v v (by omega) (by omega) hv (hw.irrefl v)
          (by omega) (by omega) hv (hw.irrefl v)
      obtain ⟨q9a, q9b⟩ := q9 (Nat.le_refl c)
      have hlen1 := q1.length
      have hb1 : Below less l1 a b := hb.of_pres q1 (by omega) (by omega)
      -- either part can be sorted
      have part : ∀ (m : List α) (s t : Int), 0 ≤ s → t < m.length → (t - s + 1).toNat < fuel →
          Below less m s t →
          ∃ m', sortPart less (sortLH less fuel) m s t = some m' ∧
            Pres m m' s t ∧ SortedR less m' s t := by
        intro m s t s0 tl tf mb
        unfold sortPart
        split
        · exact ih m s t s0 tl tf mb
        · split
          · obtain ⟨s', rfl⟩ := Int.eq_ofNat_of_zero_le s0
            obtain ⟨t', rfl⟩ := Int.eq_ofNat_of_zero_le (show 0 ≤ t by omega)
            exact insertsort_spec hw m s' t' (by omega) (by omega) mb
          · exact ⟨m, rfl, Pres.refl _ _ _, by intro p q x y h1 h2 h3; omega⟩
      -- final assembly
      have finish : ∀ l3 : List α,
          (∀ (p : Nat) x, (a : Int) ≤ p → (p : Int) < i → l3[p]? = some x → less v x = false) →
          (∀ (p : Nat) x, j < (p : Int) → (p : Int) ≤ b → l3[p]? = some x → less x v = false) →
          SortedR less l3 a j → SortedR less l3 i b → SortedR less l3 a b := by
        intro l3 f1 f2 f3 f4 p q x y p1 pq qb hx hy
        by_cases hqa : (q : Int) ≤ j
        · exact f3 p q x y p1 pq hqa hx hy
        · by_cases hpb : (i : Int) ≤ p
          · exact f4 p q x y hpb pq qb hx hy
          · exact hw.negtrans _ _ _ (f2 q y (by omega) qb hy) (f1 p x p1 (by omega) hx)
      have hgetv : getI l ((a : Int) + (b - a) * 7 / 16) = some v := by rw [hc, getI_nat]; exact hv
      rw [sortLH, if_pos hlt]
      simp only at *
      simp only [hgetv, e1, Option.bind_eq_bind, Option.bind_some]
      by_cases hsw : j - (a : Int) > (b : Int) - (i : Int)
      · -- the right part first
        rw [if_pos hsw]
        dsimp only
        obtain ⟨l2, e2, r1, r2⟩ := part l1 i b (by omega) (by omega) (by omega) (by
          intro p q x y p1 qb1 qb2 hx hy
          by_cases hpa : (p : Int) < a
          · exact hb1 p q x y hpa (by omega) qb2 hx hy
          · exact hw.negtrans _ _ _ (q3 q y (by omega) (by omega) hy) (q2 p x (by omega) (by omega) hx))
        rw [e2]
        simp only [Option.bind_some]
        obtain ⟨l3, e3, t1, t2⟩ := ih l2 a j (by omega) (by have := r1.length; omega) (by omega) (by
          intro p q x y p1 qb1 qb2 hx hy
          rw [r1.out p (by omega)] at hx
          rw [r1.out q (by omega)] at hy
          exact hb1 p q x y p1 qb1 (by omega) hx hy)
        refine ⟨l3, e3, q1.trans ((r1.mono (by omega) (by omega)).trans (t1.mono (by omega) (by omega))), ?_⟩
        refine finish l3 ?_ ?_ t2 ?_
        · intro p x p1 p2 hx
          by_cases hpj : (p : Int) ≤ j
          · exact t1.pred (fun z => less v z = false) (fun r z z1 z2 hz => by
              rw [r1.out r (by omega)] at hz; exact q2 r z (by omega) (by omega) hz) p x p1 hpj hx
          · rw [t1.out p (by omega), r1.out p (by omega)] at hx
            exact q2 p x (by omega) (by omega) hx
        · intro p x p1 p2 hx
          rw [t1.out p (by omega)] at hx
          by_cases hpi : (i : Int) ≤ p
          · exact r1.pred (fun z => less z v = false) (fun r z z1 z2 hz => q3 r z (by omega) (by omega) hz) p x
              hpi p2 hx
          · rw [r1.out p (by omega)] at hx
            exact q3 p x (by omega) (by omega) hx
        · intro p q x y p1 pq qb hx hy
          rw [t1.out p (by omega)] at hx
          rw [t1.out q (by omega)] at hy
          exact r2 p q x y p1 pq qb hx hy
      · rw [if_neg hsw]
        dsimp only
        obtain ⟨l2, e2, r1, r2⟩ := part l1 a j (by omega) (by omega) (by omega) (by
          intro p q x y p1 qb1 qb2 hx hy
          exact hb1 p q x y p1 qb1 (by omega) hx hy)
        rw [e2]
        simp only [Option.bind_some]
        have hL2 : ∀ (p : Nat) x, (a : Int) ≤ p → (p : Int) < i → l2[p]? = some x → less v x = false := by
          intro p x p1 p2 hx
          by_cases hpj : (p : Int) ≤ j
          · exact r1.pred (fun z => less v z = false) (fun r z z1 z2 hz => q2 r z (by omega) (by omega) hz) p x
              p1 hpj hx
          · rw [r1.out p (by omega)] at hx
            exact q2 p x (by omega) (by omega) hx
        obtain ⟨l3, e3, t1, t2⟩ := ih l2 i b (by omega) (by have := r1.length; omega) (by omega) (by
          intro p q x y p1 qb1 qb2 hx hy
          rw [r1.out q (by omega)] at hy
          by_cases hpa : (p : Int) < a
          · rw [r1.out p (by omega)] at hx
            exact hb1 p q x y hpa (by omega) qb2 hx hy
          · exact hw.negtrans _ _ _ (q3 q y (by omega) (by omega) hy) (hL2 p x (by omega) p1 hx))
        refine ⟨l3, e3, q1.trans ((r1.mono (by omega) (by omega)).trans (t1.mono (by omega) (by omega))), ?_⟩
        refine finish l3 ?_ ?_ ?_ t2
        · intro p x p1 p2 hx
          rw [t1.out p (by omega)] at hx
          exact hL2 p x p1 p2 hx
        · intro p x p1 p2 hx
          by_cases hpi : (i : Int) ≤ p
          · exact t1.pred (fun z => less z v = false) (fun r z z1 z2 hz => by
              rw [r1.out r (by omega)] at hz; exact q3 r z (by omega) (by omega) hz) p x hpi p2 hx
          · rw [t1.out p (by omega), r1.out p (by omega)] at hx
            exact q3 p x (by omega) (by omega) hx
        · intro p q x y p1 pq qb hx hy
          rw [t1.out p (by omega)] at hx
          rw [t1.out q (by omega)] at hy
          exact r2 p q x y p1 pq qb hx hy
    · exact ⟨l, by rw [sortLH, if_neg hlt], Pres.refl _ _ _, by intro p q x y h1 h2 h3; omega⟩

end Verif.Sort

namespace Verif.Sort
open Spec
variable {α : Type}

theorem lowerLoop_spec {less : α → α → Bool} (raw : α) (l : List α) (s0 fin : Nat) (hfin : fin ≤ l.length)
    (hpart : ∀ (p q : Nat) x y, s0 ≤ p → p ≤ q → q < fin → l[p]? = some x → l[q]? = some y →
      less y raw = true → less x raw = true) :
    ∀ (fuel start count stp : Nat), count < fuel → s0 ≤ start → start + count ≤ fin →
      (0 < count → stp < count) →
      (∀ (p : Nat) x, s0 ≤ p → p < start → l[p]? = some x → less x raw = true) →
      (∀ (p : Nat) x, start + count ≤ p → p < fin → l[p]? = some x → less x raw = false) →
      ∃ s : Nat, lowerLoop less raw l fuel start count stp = some (s : Int) ∧ s0 ≤ s ∧ s ≤ fin ∧
        (∀ (p : Nat) x, s0 ≤ p → p < s → l[p]? = some x → less x raw = true) ∧
        (∀ (p : Nat) x, s ≤ p → p < fin → l[p]? = some x → less x raw = false) := by
  intro fuel
  induction fuel with
  | zero => intros; omega
  | succ fuel ih =>
    intro start count stp hf h0 h1 h2 hL hR
    by_cases hc : 0 < count
    · have hst := h2 hc
      have hx : l[start + stp]? = some l[start + stp] := List.getElem?_eq_getElem (by omega)
      generalize l[start + stp] = x at hx
      have hg : getI l ((start : Int) + stp) = some x := by
        rw [show (start : Int) + stp = ((start + stp : Nat) : Int) by omega, getI_nat]; exact hx
      by_cases hlt : less x raw = true
      · obtain ⟨s, e, r⟩ := ih (start + (stp + 1)) (count - (stp + 1)) ((count - (stp + 1)) * 7 / 8)
          (by omega) (by omega) (by omega) (by omega)
          (fun p y p1 p2 hy => hpart p (start + stp) y x p1 (by omega) (by omega) hy hx hlt)
          (fun p y p1 p2 hy => hR p y (by omega) p2 hy)
        refine ⟨s, ?_, r⟩
        simp only [lowerLoop]
        rw [if_pos (by omega)]
        simp only [hg, Option.bind_eq_bind, Option.bind_some, hlt, if_true]
        rw [← e]
        congr 1 <;> omega
      · obtain ⟨s, e, r⟩ := ih start stp (stp / 8) (by omega) (by omega) (by omega) (by omega) hL
          (fun p y p1 p2 hy => by
            cases hly : less y raw with
            | false => rfl
            | true => exact absurd (hpart (start + stp) p x y (by omega) p1 p2 hx hy hly) hlt)
        refine ⟨s, ?_, r⟩
        simp only [lowerLoop]
        rw [if_pos (by omega)]
        simp only [hg, Option.bind_eq_bind, Option.bind_some, hlt]
        rw [← e]
        congr 1
    · refine ⟨start, ?_, h0, by omega, hL, fun p x p1 p2 => hR p x (by omega) p2⟩
      simp only [lowerLoop]
      rw [if_neg (by omega)]

theorem lowerBoundRange_spec {less : α → α → Bool} (raw : α) (l : List α) (s0 fin : Nat) (h : s0 ≤ fin)
    (hfin : fin ≤ l.length)
    (hpart : ∀ (p q : Nat) x y, s0 ≤ p → p ≤ q → q < fin → l[p]? = some x → l[q]? = some y →
      less y raw = true → less x raw = true) :
    ∃ s : Nat, lowerBoundRange less l raw s0 fin = some (if s = fin then none else some (s : Int)) ∧
      s0 ≤ s ∧ s ≤ fin ∧
      (∀ (p : Nat) x, s0 ≤ p → p < s → l[p]? = some x → less x raw = true) ∧
      (∀ (p : Nat) x, s ≤ p → p < fin → l[p]? = some x → less x raw = false) := by
  obtain ⟨s, e, r⟩ := lowerLoop_spec raw l s0 fin hfin hpart (fin - s0 + 1) s0 (fin - s0) ((fin - s0) / 2)
    (by omega) (by omega) (by omega) (by omega) (by intros; omega) (by intros; omega)
  refine ⟨s, ?_, r⟩
  unfold lowerBoundRange
  have e' : lowerLoop less raw l (((fin : Int) - s0).toNat + 1) s0 (fin - s0) ((fin - s0) / 2) = some (s : Int) := by
    rw [← e]; congr 1 <;> omega
  simp only [e', Option.bind_eq_bind, Option.bind_some]
  congr 1
  by_cases hs : s = fin
  · rw [if_pos hs, if_pos (by omega)]
  · rw [if_neg hs, if_neg (by omega)]

end Verif.Sort
