import Verif.Random.Spec
import Mathlib.Tactic.Common
import Mathlib.Tactic.Ring
import Mathlib.Dynamics.PeriodicPts.Lemmas
import Mathlib.Data.Finite.Prod
import Mathlib.Algebra.Order.Ring.Nat
import Mathlib.Data.Fintype.EquivFin
import Mathlib.Order.Interval.Finset.Nat
namespace Verif.Random
open Spec

/-! ### the generators -/

theorem shift_fix {w k : Nat} (hk : 0 < k) {d : BitVec w} (h : d = d >>> k) : d = 0#w := by
  have h1 : d.toNat = d.toNat / 2 ^ k := by
    have := congrArg BitVec.toNat h
    simpa [BitVec.toNat_ushiftRight, Nat.shiftRight_eq_div_pow] using this
  have h2 : d.toNat = 0 := by
    by_contra hn
    have : d.toNat / 2 ^ k < d.toNat := Nat.div_lt_self (by omega) (Nat.one_lt_two_pow (by omega))
    omega
  exact BitVec.eq_of_toNat_eq (by simpa using h2)

theorem xorshift_inj {w k : Nat} (hk : 0 < k) {x y : BitVec w} (h : x ^^^ (x >>> k) = y ^^^ (y >>> k)) : x = y := by
  have h1 : (x ^^^ y) = (x ^^^ y) >>> k := by
    rw [BitVec.ushiftRight_xor_distrib]
    have h2 : x ^^^ (x >>> k) ^^^ (y ^^^ (y >>> k)) = 0#w := by rw [h, BitVec.xor_self]
    have h3 : (x ^^^ y) ^^^ ((x >>> k) ^^^ (y >>> k)) = 0#w := by
      rw [← h2]
      ac_rfl
    have h4 := congrArg (· ^^^ ((x >>> k) ^^^ (y >>> k))) h3
    simpa [BitVec.xor_assoc] using h4
  have h5 := shift_fix hk h1
  have h6 := congrArg (· ^^^ y) h5
  simpa [BitVec.xor_assoc] using h6

theorem mul9 {w : Nat} (x : BitVec w) : x + (x <<< 3) = x * 9#w := by
  apply BitVec.eq_of_toNat_eq
  simp only [BitVec.toNat_add, BitVec.toNat_shiftLeft, BitVec.toNat_mul, BitVec.toNat_ofNat, Nat.shiftLeft_eq]
  rw [Nat.add_mod_mod]
  conv_rhs => rw [Nat.mul_mod, Nat.mod_mod, ← Nat.mul_mod]
  congr 1; ring

theorem mul9_inj64 {x y : BitVec 64} (h : x + (x <<< 3) = y + (y <<< 3)) : x = y := by
  rw [mul9, mul9] at h
  have h1 := congrArg (· * 0x8e38e38e38e38e39#64) h
  simp only [BitVec.mul_assoc] at h1
  rw [show (9#64 * 0x8e38e38e38e38e39#64) = 1#64 from by decide] at h1
  simpa using h1

theorem mul9_inj32 {x y : BitVec 32} (h : x + (x <<< 3) = y + (y <<< 3)) : x = y := by
  rw [mul9, mul9] at h
  have h1 := congrArg (· * 0x38e38e39#32) h
  simp only [BitVec.mul_assoc] at h1
  rw [show (9#32 * 0x38e38e39#32) = 1#32 from by decide] at h1
  simpa using h1

theorem step_inj64 (st : BitVec 64) : Function.Injective fun s : Rng 64 => (uint64 st s).2 := by
  rintro ⟨a, b, c, d⟩ ⟨a', b', c', d'⟩ h
  simp only [uint64, Rng.mk.injEq] at h
  obtain ⟨h1, h2, h3, h4⟩ := h
  have e1 := xorshift_inj (by decide) h1
  have e2 := mul9_inj64 h2
  have e3 : d = d' := by simpa using h4
  subst e1 e2 e3
  simp at h3
  subst h3
  rfl

theorem step_inj32 (st : BitVec 32) : Function.Injective fun s : Rng 32 => (uint32 st s).2 := by
  rintro ⟨a, b, c, d⟩ ⟨a', b', c', d'⟩ h
  simp only [uint32, Rng.mk.injEq] at h
  obtain ⟨h1, h2, h3, h4⟩ := h
  have e1 := xorshift_inj (by decide) h1
  have e2 := mul9_inj32 h2
  have e3 : d = d' := by simpa using h4
  subst e1 e2 e3
  simp at h3
  subst h3
  rfl

theorem after_succ {σ β : Type} (gen : σ → β × σ) (n : Nat) (s : σ) : after gen (n + 1) s = (gen (after gen n s)).2 := by
  induction n generalizing s with
  | zero => rfl
  | succ n ih => rw [after, ih]; rfl

theorem after_eq {σ β : Type} (gen : σ → β × σ) (n : Nat) (s : σ) : after gen n s = (fun s => (gen s).2)^[n] s := by
  induction n generalizing s with
  | zero => rfl
  | succ n ih => rw [after, ih]; rfl

theorem after_add {σ β : Type} (gen : σ → β × σ) (n m : Nat) (s : σ) :
    after gen (n + m) s = after gen m (after gen n s) := by
  induction n generalizing s with
  | zero => rw [Nat.zero_add]; rfl
  | succ n ih => rw [Nat.succ_add, after, ih]; rfl

theorem counter64 (st : BitVec 64) (n : Nat) (s : Rng 64) :
    (after (uint64 st) n s).s3 = s.s3 + BitVec.ofNat 64 n * st := by
  induction n with
  | zero => simp [after]
  | succ n ih =>
    rw [after_succ, BitVec.ofNat_add, BitVec.add_mul]
    show (after (uint64 st) n s).s3 + st = _
    rw [ih, BitVec.add_assoc]; simp

theorem counter32 (st : BitVec 32) (n : Nat) (s : Rng 32) :
    (after (uint32 st) n s).s3 = s.s3 + BitVec.ofNat 32 n * st := by
  induction n with
  | zero => simp [after]
  | succ n ih =>
    rw [after_succ, BitVec.ofNat_add, BitVec.add_mul]
    show (after (uint32 st) n s).s3 + st = _
    rw [ih, BitVec.add_assoc]; simp

theorem odd_mul_zero {w n : Nat} {st : BitVec w} (ho : st.toNat % 2 = 1) (h : BitVec.ofNat w n * st = 0#w) : 2 ^ w ∣ n := by
  have h1 := congrArg BitVec.toNat h
  simp only [BitVec.toNat_mul, BitVec.toNat_ofNat, Nat.zero_mod, Nat.mod_mul_mod] at h1
  have h2 : 2 ^ w ∣ n * st.toNat := Nat.dvd_of_mod_eq_zero h1
  refine Nat.Coprime.dvd_of_dvd_mul_right ?_ h2
  apply Nat.Coprime.pow_left
  unfold Nat.Coprime
  rw [Nat.gcd_rec, ho, Nat.gcd_one_left]

/-- The generator is one to one, so that every state comes back. -/
theorem returns {σ β : Type} [Finite σ] (gen : σ → β × σ) (hi : Function.Injective fun s => (gen s).2) (s : σ) :
    ∃ p, 0 < p ∧ after gen p s = s := by
  have := hi.mem_periodicPts s
  obtain ⟨p, hp, h⟩ := this
  exact ⟨p, hp, by rw [after_eq]; exact h⟩

instance (w : Nat) : Finite (Rng w) :=
  Finite.of_injective (fun s : Rng w => (s.s0.toFin, s.s1.toFin, s.s2.toFin, s.s3.toFin)) (by
    rintro ⟨a, b, c, d⟩ ⟨a', b', c', d'⟩ h
    simp only [Prod.mk.injEq, BitVec.toFin_inj] at h
    obtain ⟨rfl, rfl, rfl, rfl⟩ := h
    rfl)

/-! ### the uniform distribution -/

theorem sig_ok {w : Nat} {x : Int} (h1 : -((2 : Int) ^ (w - 1)) ≤ x) (h2 : x < 2 ^ (w - 1)) : sig w x = some x :=
  if_pos ⟨h1, h2⟩

/-- The distribution is over `n` values from `low` on. -/
structure Good (w : Nat) (d : Dist w) (low : Int) (n : Nat) : Prop where
  lowEq : d.low = low
  pos : 0 < n
  half : n < 2 ^ (w - 1)
  range : d.range.toNat = n
  threshold : d.threshold.toNat = 2 ^ w % n
  inside1 : -((2 : Int) ^ (w - 1)) ≤ low
  inside2 : low + n ≤ (2 : Int) ^ (w - 1)

theorem half_lt {w : Nat} (hw : 0 < w) : 2 ^ w = 2 * 2 ^ (w - 1) := by
  obtain ⟨k, rfl⟩ : ∃ k, w = k + 1 := ⟨w - 1, by omega⟩
  rw [Nat.pow_succ, Nat.add_sub_cancel]; ring

theorem makeUniform_spec {w : Nat} (hw : 0 < w) {low high : Int} (h1 : -((2 : Int) ^ (w - 1)) ≤ low) (h2 : low ≤ high)
    (h3 : high < 2 ^ (w - 1)) (h4 : high - low + 1 < 2 ^ (w - 1)) :
    ∃ d, makeUniform w low high = some d ∧ Good w d low (high - low + 1).toNat := by
  have hW := half_lt hw
  have hcast : ((2 ^ (w - 1) : Nat) : Int) = (2 : Int) ^ (w - 1) := by push_cast; rfl
  obtain ⟨n, hn⟩ : ∃ n : Nat, high - low + 1 = n := ⟨(high - low + 1).toNat, by omega⟩
  have hn' : (high - low + 1).toNat = n := by omega
  generalize hM : (2 : Nat) ^ (w - 1) = M at *
  rw [← hcast] at h1 h3 h4
  have hr : (BitVec.ofInt w (n : Int)).toNat = n := by
    rw [BitVec.ofInt_natCast, BitVec.toNat_ofNat]
    exact Nat.mod_eq_of_lt (by omega)
  have hne : BitVec.ofInt w (n : Int) ≠ 0#w := by
    intro e
    rw [e] at hr
    simp at hr; omega
  refine ⟨⟨low, BitVec.ofInt w n, (0#w - BitVec.ofInt w n) % BitVec.ofInt w n⟩, ?_, ?_⟩
  · have e1 : sig w (high - low) = some (high - low) := sig_ok (by rw [← hcast]; omega) (by rw [← hcast]; omega)
    have e2 : sig w (high - low + 1) = some (n : Int) := by
      rw [sig_ok (by rw [← hcast]; omega) (by rw [← hcast]; omega), hn]
    simp only [makeUniform, e1, e2, Option.bind_eq_bind, Option.bind_some]
    rw [guard_pos hne]; rfl
  · rw [hn']
    refine ⟨rfl, by omega, by omega, hr, ?_, by rw [← hcast]; omega, by rw [← hcast]; omega⟩
    rw [BitVec.toNat_umod, BitVec.toNat_sub, hr]
    simp only [BitVec.toNat_ofNat, Nat.zero_mod, Nat.add_zero]
    rw [Nat.mod_eq_of_lt (by omega : 2 ^ w - n < 2 ^ w)]
    have : 2 ^ w = (2 ^ w - n) + n := by omega
    conv_rhs => rw [this, Nat.add_mod_right]

/-- What one word gives. -/
def pickMul (w n : Nat) (x : Nat) : Option Nat := if x * n % 2 ^ w < 2 ^ w % n then none else some (x * n / 2 ^ w)

/-- What one word gives, with remainders. -/
def pickMod (w n : Nat) (x : Nat) : Option Nat := if 2 ^ w - n < x - x % n then none else some (x % n)

theorem uniform_step {σ : Type} {w : Nat} (hw : 0 < w) {gen : σ → BitVec w × σ} {d : Dist w} {low : Int} {n : Nat}
    (h : Good w d low n) (f : Nat) (s : σ) :
    uniform w gen d (f + 1) s =
      match pickMul w n (gen s).1.toNat with
      | none => uniform w gen d f (gen s).2
      | some v => some (low + v, (gen s).2) := by
  have hlt := (gen s).1.isLt
  have hW := half_lt hw
  have hcast : ((2 ^ (w - 1) : Nat) : Int) = (2 : Int) ^ (w - 1) := by push_cast; rfl
  have hhi : (gen s).1.toNat * n / 2 ^ w < n := by
    rw [Nat.div_lt_iff_lt_mul (Nat.two_pow_pos w), Nat.mul_comm]
    exact Nat.mul_lt_mul_of_pos_left hlt h.pos
  have hhalf := h.half
  have hpos := h.pos
  simp only [uniform, BitVec.lt_def, BitVec.toNat_ofNat, h.range, h.threshold, pickMul]
  by_cases hc : (gen s).1.toNat * n % 2 ^ w < 2 ^ w % n
  · rw [if_pos hc, if_pos hc]
  · rw [if_neg hc, if_neg hc]
    have hint : (BitVec.ofNat w ((gen s).1.toNat * n / 2 ^ w)).toInt = ((gen s).1.toNat * n / 2 ^ w : Nat) := by
      rw [BitVec.toInt_eq_toNat_of_lt]
      · rw [BitVec.toNat_ofNat, Nat.mod_eq_of_lt (by omega)]
      · rw [BitVec.toNat_ofNat, Nat.mod_eq_of_lt (by omega)]; omega
    have hs : sig w (d.low + (BitVec.ofNat w ((gen s).1.toNat * n / 2 ^ w)).toInt) =
        some (low + ((gen s).1.toNat * n / 2 ^ w : Nat)) := by
      rw [hint, h.lowEq]
      have i1 := h.inside1
      have i2 := h.inside2
      generalize (gen s).1.toNat * n / 2 ^ w = v at hhi
      exact sig_ok (by omega) (by omega)
    rw [hs]; rfl

theorem uniformMod_step {σ : Type} {w : Nat} (hw : 0 < w) {gen : σ → BitVec w × σ} {d : Dist w} {low : Int} {n : Nat}
    (h : Good w d low n) (f : Nat) (s : σ) :
    uniformMod w gen d (f + 1) s =
      match pickMod w n (gen s).1.toNat with
      | none => uniformMod w gen d f (gen s).2
      | some v => some (low + v, (gen s).2) := by
  have hlt := (gen s).1.isLt
  have hW := half_lt hw
  have hhalf := h.half
  have hpos := h.pos
  have hne : d.range ≠ 0#w := by
    intro e
    have := h.range
    rw [e] at this
    simp at this; omega
  have hmod : ((gen s).1 % d.range).toNat = (gen s).1.toNat % n := by rw [BitVec.toNat_umod, h.range]
  have hle : (gen s).1.toNat % n ≤ (gen s).1.toNat := Nat.mod_le _ _
  have hsub : ((gen s).1 - (gen s).1 % d.range).toNat = (gen s).1.toNat - (gen s).1.toNat % n := by
    rw [BitVec.toNat_sub_of_le (by rw [BitVec.le_def, hmod]; exact hle), hmod]
  have hneg : (-d.range).toNat = 2 ^ w - n := by
    rw [BitVec.toNat_neg, h.range, Nat.mod_eq_of_lt (by omega)]
  have hvl : (gen s).1.toNat % n < n := Nat.mod_lt _ hpos
  simp only [uniformMod, Option.bind_eq_bind]
  rw [guard_pos hne]
  simp only [Option.bind_some, gt_iff_lt, BitVec.lt_def, hsub, hneg, pickMod]
  by_cases hc : 2 ^ w - n < (gen s).1.toNat - (gen s).1.toNat % n
  · rw [if_pos hc, if_pos hc]
  · rw [if_neg hc, if_neg hc]
    have hint : ((gen s).1 % d.range).toInt = ((gen s).1.toNat % n : Nat) := by
      rw [BitVec.toInt_eq_toNat_of_lt (by rw [hmod]; omega), hmod]
    have hs : sig w (d.low + ((gen s).1 % d.range).toInt) = some (low + ((gen s).1.toNat % n : Nat)) := by
      rw [hint, h.lowEq]
      have i1 := h.inside1
      have i2 := h.inside2
      generalize (gen s).1.toNat % n = v at hvl
      exact sig_ok (by omega) (by omega)
    rw [hs]; rfl

theorem pickMul_lt {w n x v : Nat} (hx : x < 2 ^ w) (hn : 0 < n) (h : pickMul w n x = some v) : v < n := by
  unfold pickMul at h
  split at h
  · cases h
  · cases h
    rw [Nat.div_lt_iff_lt_mul (Nat.two_pow_pos w), Nat.mul_comm]
    exact Nat.mul_lt_mul_of_pos_left hx hn

theorem pickMod_lt {w n x v : Nat} (hn : 0 < n) (h : pickMod w n x = some v) : v < n := by
  unfold pickMod at h
  split at h
  · cases h
  · cases h; exact Nat.mod_lt _ hn

/-- Every value is given by the same number of words. -/
theorem count_pickMul {w n v : Nat} (hn : 0 < n) (hv : v < n) :
    ((Finset.range (2 ^ w)).filter fun x => pickMul w n x = some v).card = 2 ^ w / n := by
  generalize hW : 2 ^ w = W
  have hWp : 0 < W := by rw [← hW]; exact Nat.two_pow_pos w
  have hdm := Nat.div_add_mod W n
  have htn := Nat.mod_lt W hn
  generalize hq : W / n = q at hdm ⊢
  generalize ht : W % n = t at hdm htn
  -- multiples of n in [v W + t, (v+1) W)
  have hset : ((Finset.range W).filter fun x => pickMul w n x = some v) =
      Finset.Ico ((v * W + t + (n - 1)) / n) ((v * W + t + (n - 1)) / n + q) := by
    ext x
    simp only [Finset.mem_filter, Finset.mem_range, Finset.mem_Ico, pickMul, hW, ht]
    have hc1 : (v * W + t + (n - 1)) / n ≤ x ↔ v * W + t ≤ x * n := by
      rw [Nat.div_le_iff_le_mul_add_pred hn, Nat.mul_comm n x]; omega
    have hc2 : x < (v * W + t + (n - 1)) / n + q ↔ x * n < (v + 1) * W := by
      have e : (v * W + t + (n - 1)) / n + q = (v * W + t + (n - 1) + n * q) / n := by
        rw [Nat.add_mul_div_left _ _ hn]
      rw [e, Nat.lt_iff_add_one_le, Nat.le_div_iff_mul_le hn, Nat.add_mul, Nat.add_mul]
      omega
    rw [hc1, hc2]
    have hxd := Nat.div_add_mod (x * n) W
    have hxm := Nat.mod_lt (x * n) hWp
    constructor
    · rintro ⟨hx, h⟩
      split at h
      · cases h
      · rename_i hge
        have : x * n / W = v := Option.some.inj h
        rw [this, Nat.mul_comm W v] at hxd
        rw [Nat.add_mul]
        omega
    · rintro ⟨ha, hb⟩
      have hdv : x * n / W = v := by
        rw [Nat.div_eq_iff hWp]
        rw [Nat.add_mul] at hb
        omega
      rw [hdv, Nat.mul_comm W v] at hxd
      refine ⟨?_, ?_⟩
      · by_contra hge
        have h1 : W * n ≤ x * n := Nat.mul_le_mul_right _ (by omega)
        have h2 : (v + 1) * W ≤ n * W := Nat.mul_le_mul_right _ hv
        rw [Nat.mul_comm n W] at h2
        omega
      · rw [if_neg (by omega), hdv]
  rw [hset, Nat.card_Ico]; omega

theorem count_pickMod {w n v : Nat} (hn : 0 < n) (hnW : n ≤ 2 ^ w) (hv : v < n) :
    ((Finset.range (2 ^ w)).filter fun x => pickMod w n x = some v).card = 2 ^ w / n := by
  generalize hW : 2 ^ w = W at hnW
  have hdm := Nat.div_add_mod W n
  have htn := Nat.mod_lt W hn
  have hset : ((Finset.range W).filter fun x => pickMod w n x = some v) =
      (Finset.range (W / n)).image fun k => n * k + v := by
    ext x
    simp only [Finset.mem_filter, Finset.mem_range, Finset.mem_image, pickMod, hW]
    have hx := Nat.div_add_mod x n
    constructor
    · rintro ⟨hlt, h⟩
      split at h
      · cases h
      · rename_i hle
        have hv' : x % n = v := Option.some.inj h
        refine ⟨x / n, ?_, by omega⟩
        rw [Nat.lt_iff_add_one_le, Nat.le_div_iff_mul_le hn, Nat.add_mul, Nat.mul_comm (x / n) n]
        omega
    · rintro ⟨k, hk, rfl⟩
      rw [Nat.lt_iff_add_one_le, Nat.le_div_iff_mul_le hn, Nat.add_mul, Nat.mul_comm k n] at hk
      have hm : (n * k + v) % n = v := by rw [Nat.mul_add_mod, Nat.mod_eq_of_lt hv]
      rw [hm]
      exact ⟨by omega, by rw [if_neg (by omega)]⟩
  rw [hset, Finset.card_image_of_injective, Finset.card_range]
  intro a b h
  have h1 : n * a + v = n * b + v := h
  exact Nat.eq_of_mul_eq_mul_left hn (by omega)

/-! ### shuffle -/

section
open scoped List
variable {σ β : Type}

theorem swapAt_perm {l : List β} {i j : Nat} (hi : i < l.length) (hj : j < l.length) :
    ∃ l', swapAt l i j = some l' ∧ l' ~ l ∧ l'.length = l.length ∧
      (∀ k, k ≠ i → k ≠ j → l'[k]? = l[k]?) ∧ l'[i]? = l[j]? := by
  refine ⟨(l.set i l[j]).set j l[i], ?_, List.set_set_perm hi hj, by simp, ?_, ?_⟩
  · simp only [swapAt, List.getElem?_eq_getElem hi, List.getElem?_eq_getElem hj, Option.bind_eq_bind, Option.bind_some]
  · intro k h1 h2
    rw [List.getElem?_set_ne h2.symm, List.getElem?_set_ne h1.symm]
  · by_cases h : j = i
    · subst h
      rw [List.getElem?_set_self (by simpa using hi), List.getElem?_eq_getElem hi]
    · rw [List.getElem?_set_ne h, List.getElem?_set_self hi, List.getElem?_eq_getElem hj]

theorem modIdx {r : BitVec 64} {i : Nat} (hi : i + 2 < 2 ^ 63) :
    (r % BitVec.ofNat 64 (i + 2)).toNat = r.toNat % (i + 2) := by
  rw [BitVec.toNat_umod, BitVec.toNat_ofNat, Nat.mod_eq_of_lt (a := i + 2) (by omega)]

theorem shuffleLoop_perm (gen : σ → BitVec 64 × σ) (i : Nat) : ∀ (l : List β) (s : σ), i < l.length ∨ i = 0 →
    l.length < 2 ^ 63 → ∃ l', shuffleLoop gen i l s = some (l', after gen i s) ∧ l' ~ l := by
  induction i with
  | zero => intro l s _ _; exact ⟨l, rfl, List.Perm.refl _⟩
  | succ i ih =>
    intro l s hi hl
    have hi' : i + 1 < l.length := by omega
    have hm := modIdx (r := (gen s).1) (i := i) (by omega)
    have hlt : (gen s).1.toNat % (i + 2) < i + 2 := Nat.mod_lt _ (by omega)
    obtain ⟨l1, e1, p1, n1, _, _⟩ := swapAt_perm (l := l) (i := i + 1) (j := (gen s).1.toNat % (i + 2)) hi' (by omega)
    obtain ⟨l2, e2, p2⟩ := ih l1 (gen s).2 (by omega) (by omega)
    refine ⟨l2, ?_, p2.trans p1⟩
    simp only [shuffleLoop, hm, e1, Option.bind_eq_bind, Option.bind_some, e2]
    rfl

theorem take_perm {l l' : List β} {k : Nat} (hp : l' ~ l) (hd : l'.drop k = l.drop k) : l'.take k ~ l.take k := by
  rw [← List.take_append_drop k l, ← List.take_append_drop k l', hd] at hp
  exact (List.perm_append_right_iff _).1 hp

theorem shuffleLoop_reach (i : Nat) : ∀ (l l' : List β), i < l.length ∨ i = 0 → l.length < 2 ^ 63 → l' ~ l →
    l'.drop (i + 1) = l.drop (i + 1) → ∃ ts, shuffleLoop (tape 0#64) i l ts = some (l', []) := by
  induction i with
  | zero =>
    intro l l' _ _ hp hd
    refine ⟨[], ?_⟩
    have : l' = l := by
      cases l with
      | nil => exact hp.eq_nil
      | cons x l =>
        cases l' with
        | nil => exact absurd hp.symm.eq_nil (List.cons_ne_nil _ _)
        | cons y l' =>
          simp only [List.drop_succ_cons, List.drop_zero] at hd
          subst hd
          have := (List.perm_append_right_iff l').1 (show [y] ++ l' ~ [x] ++ l' from hp)
          rw [List.singleton_perm_singleton.1 this]
    rw [this]; rfl
  | succ i ih =>
    intro l l' hi hl hp hd
    have hi' : i + 1 < l.length := by omega
    have hlen : l'.length = l.length := hp.length_eq
    have ht := take_perm hp hd
    -- the element wanted at i + 1 is among the first i + 2
    have hmem : l'[i + 1]'(by omega) ∈ l.take (i + 2) := by
      refine ht.subset ?_
      rw [List.mem_take_iff_getElem]
      exact ⟨i + 1, by omega, rfl⟩
    obtain ⟨j, hj, hje⟩ := List.mem_take_iff_getElem.1 hmem
    obtain ⟨l1, e1, p1, n1, k1, v1⟩ := swapAt_perm (l := l) (i := i + 1) (j := j) hi' (by omega)
    have hd1 : l'.drop (i + 1) = l1.drop (i + 1) := by
      apply List.ext_getElem?
      intro k
      rw [List.getElem?_drop, List.getElem?_drop]
      cases k with
      | zero => rw [Nat.add_zero, v1, List.getElem?_eq_getElem (by omega), List.getElem?_eq_getElem (by omega), hje]
      | succ k =>
        rw [k1 _ (by omega) (by omega)]
        have := congrArg (fun L => L[k]?) hd
        simp only [List.getElem?_drop] at this
        rw [show i + 1 + (k + 1) = i + 1 + 1 + k by omega]
        exact this
    obtain ⟨ts, e2⟩ := ih l1 l' (by omega) (by omega) (hp.trans p1.symm) hd1
    refine ⟨BitVec.ofNat 64 j :: ts, ?_⟩
    have hm := modIdx (r := BitVec.ofNat 64 j) (i := i) (by omega)
    rw [BitVec.toNat_ofNat, Nat.mod_eq_of_lt (a := j) (by omega), Nat.mod_eq_of_lt (a := j) (by omega)] at hm
    simp only [shuffleLoop, tape, hm, e1, Option.bind_eq_bind, Option.bind_some, e2]

end

end Verif.Random
